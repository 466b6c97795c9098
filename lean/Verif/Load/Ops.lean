import Verif.Load.IntoJson
import Verif.Load.Root
import Verif.Load.BsonSim
import Verif.Yaml.Keep
import Verif.Reflect.Proof

/-!
# Histories of all exported operations

`Op` adds to the calls of `Verif.Heap.Calls` everything else that is exported and touches values: the parsers (new values and values
that are loaded, also when they fail), the setters from Go data, `ValueCache.Reset`, and what the encoders do to the values they write
(`UnEscapestrs` on objects; their calls of `String` are calls of `Call`).

* `NewValueFrom` is `NewCacheValue`/`new(DxValue)` and then `SetValue` (`newValueFrom` in `Verif.Load.Prog`); `SetBinaryFromFile` is `SetBinary` with the bytes of the file;
  `SetDelphiTime` is `SetTime`; `Unmarshal` is a parser and then `ToStdValue`; the loaders from files are the loaders.
* `SetValue` with data that contains `*DxValue` or implements `DxValueMarshaler` is a sequence of calls of `Call`.
* The encoders, `Visit` and `ToStdValue` are sequences of `unescape` and `Call.string`.
* The JSON parser of the model appends a member when its value is complete, the code appends it before; so after `LoadFromJson` (and
  after a `NewValueFromJson` that fails) the members of all nodes are replaced by arbitrary ones (`junk`).
* After a panic (also one that is recovered) the history ends.
-/

namespace Dxs.Heap
open MsgPack (readCode parseStr sliceFrom parseArrLen parseMapLen)
open Bson (at_)
open Json (skipWB)

/-- The memory is in order afterwards, and the caches that existed exist. -/
def Fine {α : Type} (h : Heap) : Out α → Prop
  | .ok _ h' => Inv h' ∧ h.nextC ≤ h'.nextC
  | .err _ h' => Inv h' ∧ h.nextC ≤ h'.nextC
  | _ => True

section
variable {α β : Type} {h : Heap}

theorem Fine.bind {x : Out α} {f : α → Heap → Out β} (a : Fine h x) (hf : ∀ v h1, Inv h1 → h.nextC ≤ h1.nextC → Fine h (f v h1)) : Fine h (x.bind f) := by
  cases x with
  | ok v h1 => exact hf v h1 a.1 a.2
  | err e h1 => exact a
  | panic => trivial
  | loop => trivial

theorem Fine.lift (I : Inv h) {x : Res α} {f : α → Heap → Out β} (hf : ∀ v, Fine h (f v h)) : Fine h ((Out.lift x h).bind f) := by
  cases x with
  | ok v => exact hf v
  | err e => exact ⟨I, Nat.le_refl _⟩
  | panic => trivial
  | loop => trivial

theorem Fine.ite {P : Prop} [Decidable P] {x y : Out α} (a : P → Fine h x) (b : ¬P → Fine h y) : Fine h (if P then x else y) := by
  split
  · exact a ‹_›
  · exact b ‹_›

theorem Fine.same (I : Inv h) (v : α) : Fine h (.ok v h) := ⟨I, Nat.le_refl _⟩
theorem Fine.err (I : Inv h) (e : Err) : Fine h (.err e h : Out α) := ⟨I, Nat.le_refl _⟩

theorem Fine.st {h' : Heap} (s : Step anyCache h h') (v : α) : Fine h (.ok v h') := ⟨s.inv, s.nextC⟩

theorem Fine.mono {h1 : Heap} {x : Out α} (a : Fine h1 x) (le : h.nextC ≤ h1.nextC) : Fine h x := by
  cases x with
  | ok v h2 => exact ⟨a.1, Nat.le_trans le a.2⟩
  | err e h2 => exact ⟨a.1, Nat.le_trans le a.2⟩
  | panic => trivial
  | loop => trivial

theorem Sim.fine {c : Option CId} {x : Res (Val × Bytes)} {y : Out (Option Ptr × Bytes)} (s : Sim c h x y) : Fine h y := by
  match x, y, s with
  | .ok (v, b), .ok (a, b') h', ⟨_, v', G, hv, m, r⟩ => exact ⟨m.good.inv, r.step.nextC⟩
  | .err _, .err _ _, ⟨e, I⟩ => exact ⟨I.inv, I.nextC⟩
  | .panic, .panic, _ => trivial
  | .loop, .loop, _ => trivial

theorem Loads.ok {x : Res Val} {y : Out (Option Ptr)} (s : Loads h x y) : y.Ok := by
  match x, y, s with
  | .ok _, .ok _ _, ⟨v', F, hv, m⟩ => exact m.good.inv
  | .err _, .err _ _, l => exact l.2
  | .panic, .panic, _ => trivial
  | .loop, .loop, _ => trivial

theorem Fine.ok {x : Out α} (a : Fine h x) : x.Ok := by
  cases x with
  | ok v h1 => exact a.1
  | err e h1 => exact a.1
  | panic => trivial
  | loop => trivial

end

/-! ## `LoadFromMsgPack` -/

theorem elemsH_fine {c : Option CId} {P : Heap → Bytes → Out (Option Ptr × Bytes)}
    (hP : ∀ h b, Inv h → (∀ d, c = some d → d < h.nextC) → Fine h (P h b)) (r : Ptr) : ∀ (n : Nat) (h : Heap) (b : Bytes), Inv h →
    (∀ d, c = some d → d < h.nextC) → Fine h (elemsH P r n h b) := by
  intro n
  induction n with
  | zero => intro h b I _; exact Fine.same I b
  | succ n ih =>
    intro h b I hc
    rw [elemsH]
    refine Fine.bind (hP h b I hc) ?_
    intro v h1 I1 le
    have st := I1.upd_st (X := anyCache) r (fun m => { m with arr := m.arr ++ [v.1] }) (fun n => ⟨rfl, rfl⟩)
    exact (ih _ v.2 st.inv (fun d hd => Nat.lt_of_lt_of_le (hc d hd) (Nat.le_trans le st.nextC))).mono (Nat.le_trans le st.nextC)

theorem membersH_fine (E : Env) {c : Option CId} {P : Heap → Bytes → Out (Option Ptr × Bytes)}
    (hP : ∀ h b, Inv h → (∀ d, c = some d → d < h.nextC) → Fine h (P h b)) (r : Ptr) : ∀ (n : Nat) (h : Heap) (b : Bytes), Inv h →
    (∀ d, c = some d → d < h.nextC) → Fine h (membersH E P r n h b) := by
  intro n
  induction n with
  | zero => intro h b I _; exact Fine.same I b
  | succ n ih =>
    intro h b I hc
    rw [membersH]
    refine Fine.lift I fun cb => Fine.lift I fun kb => Fine.bind (hP h kb.2 I hc) ?_
    intro v h1 I1 le
    have st := I1.setKeyValue_st (X := anyCache) E r kb.1 v.1
    exact (ih _ v.2 st.inv (fun d hd => Nat.lt_of_lt_of_le (hc d hd) (Nat.le_trans le st.nextC))).mono (Nat.le_trans le st.nextC)

theorem parseValueH_fine (E : Env) (fuel : Nat) (c : Option CId) (h : Heap) (b : Bytes) (I : Inv h) (hc : ∀ d, c = some d → d < h.nextC) :
    Fine h (parseValueH E fuel c h b) := (parseValueH_spec E fuel c h b I hc).fine

theorem array2H_fine (E : Env) (fuel : Nat) (p : Ptr) (code : UInt8) {h : Heap} (I : Inv h) (b : Bytes) : Fine h (array2H E fuel p code h b) := by
  unfold array2H
  refine Fine.lift I fun nb => Fine.ite (fun _ => Fine.same I _) (fun _ => ?_)
  have st := I.reset_st (X := anyCache) p .array
  refine (elemsH_fine (c := (h.mem p).owner) (fun h b I hc => parseValueH_fine E fuel _ h b I hc) p _ _ _ st.inv ?_).mono st.nextC
  exact fun d hd => Nat.lt_of_lt_of_le (I.owner p d hd) st.nextC

theorem object2H_fine (E : Env) (fuel : Nat) (p : Ptr) (code : UInt8) {h : Heap} (I : Inv h) (b : Bytes) : Fine h (object2H E fuel p code h b) := by
  unfold object2H
  refine Fine.lift I fun nb => Fine.ite (fun _ => Fine.same I _) (fun _ => ?_)
  split
  · trivial
  · refine Fine.ite (fun _ => Fine.err I _) (fun _ => ?_)
    exact membersH_fine E (c := (h.mem p).owner) (fun h b I hc => parseValueH_fine E fuel _ h b I hc) p _ _ _ I (fun d hd => I.owner p d hd)

theorem bin2H_fine (p : Ptr) (code : UInt8) {h : Heap} (I : Inv h) (b : Bytes) : Fine h (bin2H p code h b) := by
  unfold bin2H
  refine Fine.lift I fun nb => Fine.ite (fun _ => ?_) (fun _ => Fine.err I _)
  exact Fine.st (I.upd_st p (fun n => { n with bin := n.bin ++ nb.2.take nb.1 }) (fun n => ⟨rfl, rfl⟩)) _

theorem ext2H_fine (E : Env) (p : Ptr) (code : UInt8) {h : Heap} (I : Inv h) (b : Bytes) : Fine h (ext2H E p code h b) := by
  unfold ext2H
  refine Fine.lift I fun nb => Fine.ite (fun _ => Fine.err I _) (fun _ => Fine.lift I fun tail => ?_)
  split
  · trivial
  · refine Fine.ite (fun _ => Fine.lift I fun x => Fine.st (I.setDouble_st p x) _) (fun _ => ?_)
    exact Fine.st (I.upd_st p (fun n => { n with bin := n.bin ++ nb.2.take (nb.1 + 1) }) (fun n => ⟨rfl, rfl⟩)) _

theorem parse2H_fine (E : Env) (fuel : Nat) (p : Ptr) {h : Heap} (I : Inv h) (b : Bytes) : Fine h (parse2H E fuel p h b) := by
  unfold parse2H
  refine Fine.lift I fun cb => ?_
  have num : ∀ (x : Res (Nat × Bytes)) (f : Nat → BitVec 64), Fine h ((Out.lift x h).bind fun ub h => .ok ub.2 (setInt h p (f ub.1))) :=
    fun x f => Fine.lift I fun ub => Fine.st (I.setInt_st p _) _
  dsimp only
  refine Fine.ite (fun _ => Fine.lift I fun sb => Fine.st (I.upd_st p (fun n => { n with str := sb.1 }) (fun n => ⟨rfl, rfl⟩)) _) (fun _ => ?_)
  refine Fine.ite (fun _ => array2H_fine E fuel p _ I _) (fun _ => ?_)
  refine Fine.ite (fun _ => object2H_fine E fuel p _ I _) (fun _ => ?_)
  refine Fine.ite (fun _ => Fine.st (I.setInt_st p _) _) (fun _ => ?_)
  iterate 7 refine Fine.ite (fun _ => num _ _) (fun _ => ?_)
  refine Fine.ite (fun _ => Fine.lift I fun ub => Fine.st (I.setFloat_st p _) _) (fun _ => ?_)
  refine Fine.ite (fun _ => Fine.lift I fun ub => Fine.st (I.setDouble_st p _) _) (fun _ => ?_)
  refine Fine.ite (fun _ => Fine.st (I.reset_st p _) _) (fun _ => ?_)
  refine Fine.ite (fun _ => Fine.st (I.reset_st p _) _) (fun _ => ?_)
  refine Fine.ite (fun _ => Fine.st (I.reset_st p _) _) (fun _ => ?_)
  refine Fine.ite (fun _ => bin2H_fine p _ I _) (fun _ => ?_)
  refine Fine.ite (fun _ => ext2H_fine E p _ I _) (fun _ => Fine.same I _)

theorem loadMsgPackH_ok (E : Env) {h : Heap} (I : Inv h) (p : Ptr) (b : Bytes) : (loadMsgPackH E h p b).Ok := by
  unfold loadMsgPackH
  have I1 := I.clear p
  dsimp only
  split
  · exact I1
  · refine Fine.ok (h := clear h p) (Fine.bind (parse2H_fine E _ p I1 b) ?_)
    exact fun _ h1 I le => ⟨I, le⟩

/-! ## `LoadFromJson` -/

theorem jvalueH_fine (E : Env) (fuel : Nat) (c : Option CId) (h : Heap) (b : Bytes) (I : Inv h) (hc : ∀ d, c = some d → d < h.nextC) :
    Fine h (jvalueH E fuel c h b) := ((jsim E fuel).value c h b I hc).fine

theorem jobj2LoopH_fine (E : Env) (r : Ptr) (c : Option CId) : ∀ (fuel : Nat) (h : Heap) (b : Bytes), Inv h → (∀ d, c = some d → d < h.nextC) →
    Fine h (jobj2LoopH E c r fuel h b) := by
  intro fuel
  induction fuel with
  | zero => intro h b _ _; trivial
  | succ fuel ih =>
    intro h b I hc
    rw [jobj2LoopH]
    dsimp only
    have st1 := I.upd_st (X := anyCache) r (fun n => { n with kvs := n.kvs ++ [([], none)] }) (fun n => ⟨rfl, rfl⟩)
    refine Fine.mono ?_ st1.nextC
    have hc1 := fun d hd => Nat.lt_of_lt_of_le (hc d hd) st1.nextC
    have I1 := st1.inv
    refine Fine.lift I1 fun start => Fine.ite (fun _ => Fine.err I1 _) (fun _ => Fine.lift I1 fun b => Fine.lift I1 fun kb => ?_)
    have st2 := I1.upd_st (X := anyCache) r (fun n => { n with kvs := setLast n.kvs (kb.1, none) }) (fun n => ⟨rfl, rfl⟩)
    refine Fine.mono ?_ st2.nextC
    have hc2 := fun d hd => Nat.lt_of_lt_of_le (hc1 d hd) st2.nextC
    have I2 := st2.inv
    refine Fine.lift I2 fun colon =>
      Fine.ite (fun _ => Fine.err I2 _) (fun _ => Fine.lift I2 fun b => Fine.bind (jvalueH_fine E fuel c _ _ I2 hc2) ?_)
    intro vb h1 I1 le
    have st := I1.upd_st (X := anyCache) r (fun n => { n with kvs := setLast n.kvs (kb.1, vb.1) }) (fun n => ⟨rfl, rfl⟩)
    have le2 := Nat.le_trans le st.nextC
    refine Fine.mono ?_ le2
    refine Fine.ite (fun _ => Fine.err st.inv _) (fun _ => Fine.lift st.inv fun x => ?_)
    refine Fine.ite (fun _ => Fine.lift st.inv fun b => ih _ b st.inv (fun d hd => Nat.lt_of_lt_of_le (hc2 d hd) le2)) (fun _ => ?_)
    exact Fine.ite (fun _ => Fine.lift st.inv fun b => Fine.same st.inv b) (fun _ => Fine.err st.inv _)

theorem jarrLoopH_fine (E : Env) (r : Ptr) (c : Option CId) : ∀ (fuel : Nat) (h : Heap) (b : Bytes), Inv h → (∀ d, c = some d → d < h.nextC) →
    Fine h (jarrLoopH E fuel c r h b) := by
  intro fuel
  induction fuel with
  | zero => intro h b _ _; trivial
  | succ fuel ih =>
    intro h b I hc
    rw [jarrLoopH]
    refine Fine.bind (jvalueH_fine E fuel c h _ I hc) ?_
    intro vb h1 I1 le
    have st := I1.upd_st (X := anyCache) r (fun n => { n with arr := n.arr ++ [vb.1] }) (fun n => ⟨rfl, rfl⟩)
    have le2 := Nat.le_trans le st.nextC
    refine Fine.mono ?_ le2
    refine Fine.ite (fun _ => Fine.err st.inv _) (fun _ => Fine.lift st.inv fun x => ?_)
    refine Fine.ite (fun _ => Fine.lift st.inv fun b => ih _ b st.inv (fun d hd => Nat.lt_of_lt_of_le (hc d hd) le2)) (fun _ => ?_)
    exact Fine.ite (fun _ => Fine.lift st.inv fun b => Fine.same st.inv b) (fun _ => Fine.err st.inv _)

theorem num2Loop_fine (E : Env) (p : Ptr) {h : Heap} (I : Inv h) (b : Bytes) : ∀ (r : Bytes) (i : Nat), Fine h (num2Loop E p h b i r) := by
  intro r
  induction r with
  | nil => intro i; exact Fine.same I _
  | cons ch r ih =>
    intro i
    rw [num2Loop]
    refine Fine.ite (fun _ => ih _) (fun _ => Fine.lift I fun word => Fine.ite (fun _ => Fine.lift I fun t => Fine.ite (fun _ => Fine.lift I fun xs => ?_)
      (fun _ => Fine.err I _)) (fun _ => Fine.lift I fun ns => Fine.lift I fun tail => ?_))
    · refine Fine.ite (fun _ => Fine.lift I fun t => Fine.st (I.reset_st p _) _) (fun _ => ?_)
      exact Fine.ite (fun _ => Fine.lift I fun t => Fine.st (I.reset_st p _) _) (fun _ => Fine.err I _)
    · exact Fine.ite (fun _ => Fine.st (I.setFloat_st p _) _) (fun _ => Fine.st (I.setInt_st p _) _)

theorem json2H_fine (E : Env) (fuel : Nat) (p : Ptr) {h : Heap} (I : Inv h) (b : Bytes) : Fine h (json2H E fuel p h b) := by
  unfold json2H
  dsimp only
  refine Fine.ite (fun _ => Fine.err I _) (fun _ => Fine.lift I fun b0 => ?_)
  refine Fine.ite (fun _ => Fine.lift I fun b => Fine.ite (fun _ => Fine.err I _) (fun _ => Fine.lift I fun b0 => Fine.ite (fun _ => ?_) (fun _ => ?_))) (fun _ => ?_)
  · exact Fine.lift I fun t => Fine.same I _
  · exact jobj2LoopH_fine E p _ fuel h _ I (fun d hd => I.owner p d hd)
  refine Fine.ite (fun _ => Fine.lift I fun b => Fine.ite (fun _ => Fine.err I _) (fun _ => Fine.lift I fun b0 => Fine.ite (fun _ => ?_) (fun _ => ?_))) (fun _ => ?_)
  · exact Fine.lift I fun t => Fine.same I _
  · exact jarrLoopH_fine E p _ fuel h _ I (fun d hd => I.owner p d hd)
  refine Fine.ite (fun _ => Fine.lift I fun b => Fine.lift I fun st => ?_) (fun _ => ?_)
  · split
    · have s1 := I.reset_st (X := anyCache) p .rawString
      exact Fine.st (s1.trans (s1.inv.upd_st p (fun n => { n with str := st.1 }) (fun n => ⟨rfl, rfl⟩))) _
    · rename_i d _
      have s1 := I.reset_st (X := anyCache) p .dateTime
      exact Fine.st (s1.trans (s1.inv.setDouble_st p d)) _
  refine Fine.ite (fun _ => Fine.lift I fun vt => Fine.st (I.reset_st p _) _) (fun _ => num2Loop_fine E p I b _ _)

theorem loadJsonH_ok (E : Env) {h : Heap} (I : Inv h) (p : Ptr) (b : Bytes) : (loadJsonH E h p b).Ok := by
  unfold loadJsonH
  have I1 := I.clear p
  dsimp only
  split
  · exact I1
  · refine Fine.ok (h := clear h p) (Fine.bind (json2H_fine E _ p I1 _) ?_)
    exact fun _ h1 I le => ⟨I, le⟩

/-! ## Go data -/

theorem setValue_inv (E : Env) {h : Heap} (I : Inv h) (p : Ptr) (g : Reflect.Go) {h' : Heap} (e : Reflect.setValue E h p g = .ok h') : Inv h' := by
  have own : ∀ t d, ((reset h p t).mem p).owner = some d → d < (reset h p t).nextC := fun t d hd => (I.reset p t).owner p d hd
  unfold Reflect.setValue at e
  split at e
  · cases e; exact I
  split at e
  · cases e; exact I
  · cases e; exact (I.setInt_st (X := anyCache) p _).inv
  · cases e; exact (I.setInt_st (X := anyCache) p _).inv
  · cases e; exact (I.setString_st (X := anyCache) p _).inv
  · cases e; exact (I.setBool_st (X := anyCache) p _).inv
  · cases e; exact (I.setFloat_st (X := anyCache) p _).inv
  · cases e; exact (I.setDouble_st (X := anyCache) p _).inv
  · cases e; exact I
  · cases e; exact (I.setDouble_st (X := anyCache) p _).inv
  · cases e; exact (I.setBinary_st (X := anyCache) p _).inv
  · exact (Reflect.setKeys_st _ (I.reset p _) p _ (own _) e).inv
  · exact (Reflect.setItems_st _ (I.reset p _) p _ 0 (own _) e).inv
  · cases e; exact I
  · exact (Reflect.setFields_st _ (I.reset p _) p _ _ (own _) e).inv
  · exact (Reflect.setRItems_st _ (I.reset p _) p _ 0 (own _) e).inv
  · exact (Reflect.setFields_st _ (I.reset p _) p _ _ (own _) e).inv
  · split at e
    · cases e
    · cases e; exact I
  · cases e; exact I

/-! ## Operations -/

/-- An exported operation. -/
inductive Op where
  | api (c : Call)
  | unescape (p : Ptr)
  | resetCache (p : Ptr) (toRoot : Bool)
  | setGo (p : Ptr) (g : Reflect.Go)
  | setKeyGo (p : Ptr) (k : Bytes) (g : Reflect.Go) (cache : Option Ptr)
  | setIndexGo (p : Ptr) (i : Nat) (g : Reflect.Go) (cache : Option Ptr)
  | newMsgPack (b : Bytes) (cached : Bool) (pick : Option Nat)
  | loadMsgPack (p : Ptr) (b : Bytes)
  | newJson (b : Bytes) (cached : Bool) (pick : Option Nat) (junk : Ptr → List (Bytes × Option Ptr))
  | loadJson (p : Ptr) (b : Bytes) (junk : Ptr → List (Bytes × Option Ptr))
  | newBson (hid : Bytes) (b : Bytes) (cached : Bool) (pick : Option Nat)
  | loadBson (hid : Bytes) (p : Ptr) (b : Bytes)
  | newYaml (b : Bytes) (cached : Bool) (pick : Heap → Option Nat) (parser : Yaml.Parser) (fuel : Nat)
  | loadYaml (p : Ptr) (b : Bytes) (pick : Heap → Option Nat) (parser : Yaml.Parser) (fuel : Nat)

/-- The memory after an operation that returned, with or without an error. -/
def Out.mem {α : Type} : Out α → Option Heap
  | .ok _ h => some h
  | .err _ h => some h
  | _ => none

/-- The memory after a call that has no error result. -/
def Res.mem : Res Heap → Option Heap
  | .ok h => some h
  | _ => none

/-- Arbitrary members in all nodes. -/
def withKvs (h : Heap) (junk : Ptr → List (Bytes × Option Ptr)) : Heap := { h with mem := fun p => { h.mem p with kvs := junk p } }

/-- Perform an operation. `LoadFromBson` needs a value that exists. -/
def Op.next (E : Env) (h : Heap) : Op → Option Heap
  | .api c => Res.mem (c.run E h)
  | .unescape p => some (unescAll E h p)
  | .resetCache p toRoot => (h.mem p).owner.map (fun c => cacheReset h c toRoot)
  | .setGo p g => Res.mem (Reflect.setValue E h p g)
  | .setKeyGo p k g c => Res.mem (Reflect.setKeyvalue E h p k (cacheOf h c) g)
  | .setIndexGo p i g c => Res.mem (Reflect.setIndexvalue E h p i (cacheOf h c) g)
  | .newMsgPack b cached pick => (newValueFromMsgPackH E h b cached pick).mem
  | .loadMsgPack p b => (loadMsgPackH E h p b).mem
  | .newJson b cached pick junk =>
    match newValueFromJsonH E h b cached pick with
    | .ok _ h => some h
    | .err _ h => some (withKvs h junk)
    | _ => none
  | .loadJson p b junk => (loadJsonH E h p b).mem.map (fun h => withKvs h junk)
  | .newBson hid b cached pick => (newValueFromBsonH E hid h b cached pick).mem
  | .loadBson hid p b => if p < h.next then (loadBsonH E hid h p b).mem else none
  | .newYaml b cached pick parser fuel => Yaml.newYamlMem E pick fuel parser h b cached
  | .loadYaml p b pick parser fuel => Yaml.loadYamlMem E pick fuel parser h p b

/-- A history. -/
def history (E : Env) : Heap → List Op → Option Heap
  | h, [] => some h
  | h, o :: os => (o.next E h).bind (fun h => history E h os)

theorem Out.Ok.mem {α : Type} {x : Out α} (a : x.Ok) {h' : Heap} (e : x.mem = some h') : Inv h' := by
  cases x <;> cases e <;> exact a

theorem Res.mem_eq {x : Res Heap} {h' : Heap} (e : Res.mem x = some h') : x = .ok h' := by
  cases x <;> cases e; rfl

theorem Inv.withKvs {h : Heap} (I : Inv h) (junk : Ptr → List (Bytes × Option Ptr)) : Inv (withKvs h junk) :=
  ⟨I.next5, I.const, I.capPos, I.lenLe, I.nodup, I.range, I.disj, I.owner, I.pool⟩

/-- Every operation keeps the memory in order. -/
theorem Inv.next {h : Heap} (I : Inv h) (E : Env) (o : Op) {h' : Heap} (e : o.next E h = some h') : Inv h' := by
  cases o <;> simp only [Op.next] at e
  case api c => exact I.call E c (Res.mem_eq e)
  case unescape p => cases e; exact (I.unescAll_st (X := anyCache) E p).inv
  case resetCache p t =>
    rw [Option.map_eq_some_iff] at e
    obtain ⟨c, _, rfl⟩ := e
    exact I.cacheReset c t
  case setGo p g => exact setValue_inv E I p g (Res.mem_eq e)
  case setKeyGo p k g c => exact (Reflect.setKeyvalue_st g I p k _ (I.cacheOf c) (Res.mem_eq e)).inv
  case setIndexGo p i g c => exact (Reflect.setIndexvalue_st g I p i _ (I.cacheOf c) (Res.mem_eq e)).inv
  case newMsgPack b c pick => exact (newValueFromMsgPackH_spec E I b c pick).ok.mem e
  case loadMsgPack p b => exact (loadMsgPackH_ok E I p b).mem e
  case newJson b c pick junk =>
    have k := (newValueFromJsonH_spec E I b c pick).ok
    generalize newValueFromJsonH E h b c pick = x at k e
    cases x with
    | ok a h1 => cases e; exact k
    | err x h1 => cases e; exact Inv.withKvs k junk
    | panic => cases e
    | loop => cases e
  case loadJson p b junk =>
    rw [Option.map_eq_some_iff] at e
    obtain ⟨h1, e1, rfl⟩ := e
    exact ((loadJsonH_ok E I p b).mem e1).withKvs junk
  case newBson hid b c pick => exact (newValueFromBsonH_ok E hid I b c pick).mem e
  case loadBson hid p b =>
    split at e
    · exact (loadBsonH_ok E hid I ‹_› b).mem e
    · cases e
  case newYaml => exact Yaml.newYamlMem_inv I e
  case loadYaml => exact Yaml.loadYamlMem_inv I e

/-- ... and so does every history. -/
theorem Inv.history (E : Env) (os : List Op) : ∀ {h h' : Heap}, Inv h → Heap.history E h os = some h' → Inv h' := by
  induction os with
  | nil => intro h h' I e; cases e; exact I
  | cons o os ih =>
    intro h h' I e
    rw [Heap.history, Option.bind_eq_some_iff] at e
    obtain ⟨h1, e1, e⟩ := e
    exact ih (I.next E o e1) e

end Dxs.Heap
