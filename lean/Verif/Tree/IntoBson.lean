import Verif.Tree.Into
import Verif.Load.BsonFill

/-!
# Loading BSON into a value that exists, on trees

What `LoadFromBson` makes of a value is a function of the value and the document, also for documents that name members twice, put
elements at odd indexes, contain arrays where objects were, or are refused half way: then what was stored before is still there, and the
element that was being read is there in part.
-/

namespace Dxs.Heap
open Bson (uint32 uint64 at_ sliceTo slice targetType)

/-- The value is part of a larger one. -/
def Filled.inside {α : Type} (x : Filled α) (f : Val → Val) : Filled α :=
  match x with
  | .ok a v => .ok a (f v)
  | .err e v => .err e (f v)
  | .panic => .panic
  | .loop => .loop

/-- The binary branch of `parseValue`, bson_parse.go:176-206, for a Null value. -/
def bbinT (hid : Bytes) (b : Bytes) : Filled Nat :=
  let v := .exbin 5 []
  (Filled.lift (uint32 hid b) v).bind fun n v =>
  (Filled.lift (MsgPack.sliceFrom 4 b) v).bind fun b v =>
  (Filled.lift (at_ b 0) v).bind fun sub v =>
  if sub == 2 then
    (Filled.lift (MsgPack.sliceFrom 5 b) v).bind fun b v =>
    (Filled.lift (uint32 hid b) v).bind fun n v =>
    (Filled.lift (MsgPack.sliceFrom 9 b) v).bind fun b v =>
    if n > b.length then .err .invalidBson v
    else (Filled.lift (sliceTo hid n b) (.bin 0 [])).bind fun d _ => .ok (9 + n) (.bin 0 d)
  else (Filled.lift (sliceTo hid (n + 1) b) v).bind fun d _ => .ok (4 + (n + 1)) (.bin 0 d)

/-- `parseValue`, bson_parse.go:158-255, for a Null value. -/
def bsimpleT (E : Env) (hid : Bytes) (ty : UInt8) (b : Bytes) : Filled Nat :=
  let v := .null
  if ty == 0x01 then (Filled.lift (uint64 hid b) v).bind fun w _ => .ok 8 (.double (BitVec.ofNat 64 w))
  else if ty == 0x02 then
    (Filled.lift (uint32 hid b) v).bind fun n v =>
    (Filled.lift (if n = 0 then .panic else slice hid 4 (4 + n - 1) b) v).bind fun s _ => .ok (4 + n) (.str s)
  else if ty == 0x05 then bbinT hid b
  else if ty == 0x07 then (Filled.lift (sliceTo hid 12 b) v).bind fun d _ => .ok 12 (.bin 7 d)
  else if ty == 0x08 then (Filled.lift (at_ b 0) v).bind fun x _ => .ok 1 (if x == 1 then .tru else .fls)
  else if ty == 0x09 then (Filled.lift (uint64 hid b) v).bind fun w _ => .ok 8 (.dateTime (E.ofMilli (BitVec.ofNat 64 w)))
  else if ty == 0x10 then (Filled.lift (uint32 hid b) v).bind fun w _ => .ok 4 (.int 0 (BitVec.ofNat 64 w))
  else if ty == 0x11 then (Filled.lift (uint64 hid b) v).bind fun w _ => .ok 8 (.int 17 (BitVec.ofNat 64 w))
  else if ty == 0x12 then (Filled.lift (uint64 hid b) v).bind fun w _ => .ok 8 (.int 0 (BitVec.ofNat 64 w))
  else if ty == 0x13 then (Filled.lift (sliceTo hid 16 b) v).bind fun d _ => .ok 16 (.bin 19 d)
  else .ok 0 v

mutual
/-- `parseBsonDocument`, bson_parse.go:24-88. -/
def docT (E : Env) (hid : Bytes) : Nat → Val → Bytes → Filled Nat
  | 0, _, _ => .loop
  | fuel + 1, v, b =>
    if b.length ≤ 4 then .err .badBsonLen v
    else
      (Filled.lift (uint32 hid b) v).bind fun docLen v =>
      if docLen > b.length then .err .badBsonLen v
      else (docLoopT E hid fuel v b docLen 4).bind fun _ v => .ok docLen v
termination_by structural x => x
/-- The loop of `parseBsonDocument`, bson_parse.go:38-86. A member of the right type is filled further. -/
def docLoopT (E : Env) (hid : Bytes) : Nat → Val → Bytes → Nat → Nat → Filled Unit
  | 0, _, _, _, _ => .loop
  | fuel + 1, v, b, docLen, pi =>
    if pi < docLen then
      (Filled.lift (at_ b pi) v).bind fun ty v =>
      match (b.drop (pi + 1)).idxOf? 0 with
      | none => .err .invalidBson v
      | some k =>
        let key := (b.drop (pi + 1)).take k
        if asIndex E key v = false ∧ oldName E v key = some .nil then .panic
        else
          ((elemT E hid fuel ty (slotOf (targetType ty) 0 (oldName E v key)) (b.drop (pi + 1 + k + 1))).inside (putName E v key)).bind fun n v =>
          if pi + 1 + k + 1 + n = docLen - 1 ∧ b[pi + 1 + k + 1 + n]? = some 0 then .ok () v
          else docLoopT E hid fuel v b docLen (pi + 1 + k + 1 + n)
    else .ok () v
termination_by structural x => x
/-- The `switch btype` of bson_parse.go:56-81 and 125-150. -/
def elemT (E : Env) (hid : Bytes) : Nat → UInt8 → Val → Bytes → Filled Nat
  | 0, _, _, _ => .loop
  | fuel + 1, ty, v, b =>
    if ty == 0x04 then barrT E hid fuel v b
    else if ty == 0x03 then docT E hid fuel v b
    else bsimpleT E hid ty b
termination_by structural x => x
/-- `parseBsonArray`, bson_parse.go:91-156. -/
def barrT (E : Env) (hid : Bytes) : Nat → Val → Bytes → Filled Nat
  | 0, _, _ => .loop
  | fuel + 1, v, b =>
    (Filled.lift (uint32 hid b) v).bind fun docLen v =>
    if docLen > b.length then .err .badBsonLen v
    else (barrLoopT E hid fuel v b docLen 4).bind fun _ v => .ok docLen v
termination_by structural x => x
/-- The loop of `parseBsonArray`, bson_parse.go:102-154. -/
def barrLoopT (E : Env) (hid : Bytes) : Nat → Val → Bytes → Nat → Nat → Filled Unit
  | 0, _, _, _, _ => .loop
  | fuel + 1, v, b, docLen, pi =>
    if pi < docLen then
      (Filled.lift (at_ b pi) v).bind fun ty v =>
      match (b.drop (pi + 1)).idxOf? 0 with
      | none => .err .invalidBson v
      | some k =>
        let idx : Int := ((E.strToInt ((b.drop (pi + 1)).take k)).map BitVec.toInt).getD (-1)
        if idx = -1 then .err .bsonArrayIndex v
        else
          ((elemT E hid fuel ty (slotOf (targetType ty) 0 (arrOld (arrOf v) idx)) (b.drop (pi + 1 + k + 1))).inside (arrPut (arrOf v) idx)).bind fun n v =>
          if pi + 1 + k + 1 + n = docLen - 1 ∧ b[pi + 1 + k + 1 + n]? = some 0 then .ok () v
          else barrLoopT E hid fuel v b docLen (pi + 1 + k + 1 + n)
    else .ok () v
termination_by structural x => x
end

/-- `LoadFromBson`, dxvalue.go:309-316. -/
def loadBsonT (E : Env) (hid : Bytes) (v : Val) (b : Bytes) : Filled Unit :=
  let v := clearVal v
  if b = [] then .ok () v
  else (docT E hid (2 * b.length + 2) v b).bind fun _ v => .ok () v

/-! ## The memory behaves like that -/

/-- The memory does what happens to the tree, up to the unused bits of a Float. -/
def BInto {α : Type} (X : CId → Prop) (h : Heap) (F : List Ptr) (p : Ptr) : Filled α → Out α → Prop
  | .ok a v, .ok a' h' => a' = a ∧ Step X h h' ∧ ∃ v' F', canon v' = canon v ∧ Upd h F h' (some p) v' F'
  | .err e v, .err e' h' => e' = e ∧ Step X h h' ∧ ∃ v' F', canon v' = canon v ∧ Upd h F h' (some p) v' F'
  | .panic, .panic => True
  | .loop, .loop => True
  | _, _ => False

section
variable {α β : Type} {X : CId → Prop} {h : Heap} {p : Ptr} {F : List Ptr} {w v : Val}

theorem BInto.same (g : Good h (some p) w F) (hv : canon w = canon v) (a : α) : BInto X h F p (.ok a v) (.ok a h) := ⟨rfl, Step.refl g.inv, w, F, hv, g.upd_refl⟩

theorem BInto.err (g : Good h (some p) w F) (hv : canon w = canon v) (e : Err) : BInto X h F p (.err e v : Filled α) (.err e h) := ⟨rfl, Step.refl g.inv, w, F, hv, g.upd_refl⟩

theorem BInto.lift (g : Good h (some p) w F) (hv : canon w = canon v) {x : Res α} {f : α → Val → Filled β} {k : α → Heap → Out β} (hf : ∀ a, BInto X h F p (f a v) (k a h)) :
    BInto X h F p ((Filled.lift x v).bind f) ((Out.lift x h).bind k) := by
  cases x with
  | ok a => exact hf a
  | err e => exact BInto.err g hv e
  | panic => trivial
  | loop => trivial

theorem BInto.ite {P : Prop} [Decidable P] {x x' : Filled α} {y y' : Out α} (a : P → BInto X h F p x y) (b : ¬P → BInto X h F p x' y') :
    BInto X h F p (if P then x else x') (if P then y else y') := by
  by_cases hP : P
  · rw [if_pos hP, if_pos hP]; exact a hP
  · rw [if_neg hP, if_neg hP]; exact b hP

theorem BInto.after {h1 : Heap} {F1 : List Ptr} {v1 : Val} (s : Step X h h1) (u : Upd h F h1 (some p) v1 F1) {x : Filled α} {y : Out α} (l : BInto X h1 F1 p x y) : BInto X h F p x y := by
  match x, y, l with
  | .ok _ _, .ok _ _, ⟨e, s', v', F', hc, u'⟩ => exact ⟨e, s.trans s', v', F', hc, UpdX.trans u u'⟩
  | .err _ _, .err _ _, ⟨e, s', v', F', hc, u'⟩ => exact ⟨e, s.trans s', v', F', hc, UpdX.trans u u'⟩
  | .panic, .panic, _ => trivial
  | .loop, .loop, _ => trivial

/-- Then something follows. -/
theorem BInto.bind {S : Ptr → Prop} {x : Filled α} {y : Out α} (l : BInto X h F p x y) (k : HoldS S h y) {f : α → Val → Filled β} {f' : α → Heap → Out β}
    (hf : ∀ a v h1 v1 F1 S1, canon v1 = canon v → Step X h h1 → Upd h F h1 (some p) v1 F1 → Solid S1 h1 → (∀ x, S x → S1 x) → BInto X h1 F1 p (f a v) (f' a h1)) :
    BInto X h F p (x.bind f) (y.bind f') := by
  match x, y, l, k with
  | .ok _ v, .ok a h1, ⟨rfl, s, v1, F1, hc, u⟩, ⟨_, S1, s1, hs⟩ => exact BInto.after s u (hf a v h1 v1 F1 S1 hc s u s1 hs)
  | .err _ _, .err _ _, l, _ => exact l
  | .panic, .panic, _, _ => trivial
  | .loop, .loop, _, _ => trivial

/-- An inner value is loaded. -/
theorem BInto.inside {q : Ptr} {Fq : List Ptr} {put put' : Val → Val} (hp : ∀ {a b}, canon a = canon b → canon (put' a) = canon (put b))
    (hu : ∀ h2 w' Fq', Upd h Fq h2 (some q) w' Fq' → ∃ F', Upd h F h2 (some p) (put' w') F') {x : Filled α} {y : Out α} (l : BInto X h Fq q x y) :
    BInto X h F p (x.inside put) y := by
  match x, y, l with
  | .ok _ _, .ok _ h', ⟨e, s, v', F', hc, u⟩ => obtain ⟨F', u'⟩ := hu h' v' F' u; exact ⟨e, s, _, F', hp hc, u'⟩
  | .err _ _, .err _ h', ⟨e, s, v', F', hc, u⟩ => obtain ⟨F', u'⟩ := hu h' v' F' u; exact ⟨e, s, _, F', hp hc, u'⟩
  | .panic, .panic, _ => trivial
  | .loop, .loop, _ => trivial

theorem BInto.unit {x : Filled α} {y : Out α} (l : BInto X h F p x y) (b : β) : BInto X h F p (x.bind fun _ v => .ok b v) (y.bind fun _ h => .ok b h) := by
  match x, y, l with
  | .ok _ _, .ok _ _, ⟨_, l⟩ => exact ⟨rfl, l⟩
  | .err _ _, .err _ _, l => exact l
  | .panic, .panic, _ => trivial
  | .loop, .loop, _ => trivial

/-- One write. -/
theorem BInto.set {n : Node} {x : Val} (g : Good h (some p) w F) (h5 : 5 ≤ p) (ho : n.owner = (h.mem p).owner) (hw : leafOf n = some x) (k : α) :
    BInto X h F p (.ok k x) (.ok k (h.set p n)) :=
  ⟨rfl, g.inv.set_st p n (fun h => by omega) ho, _, _, rfl, write_leaf g rfl h5 ho hw⟩

/-- One operation. -/
theorem BInto.run (E : Env) (g : Good h (some p) w F) (h5 : 5 ≤ p) (m : Mut) {h' : Heap} (hm : ∀ d, (h.mem p).owner = some d → X d)
    (e : m.run E h p = .ok h') {x : Val} (hx : ∀ c, m.onTree E c w = .ok x) (k : α) : BInto X h F p (.ok k x) (.ok k h') := by
  have := Mut.exact (E := E) g h5 m
  rw [e] at this
  obtain ⟨c, v', F', h1, u⟩ := this
  have h1 : m.onTree E c w = .ok v' := h1
  rw [hx c] at h1
  cases h1
  exact ⟨rfl, Mut.step g.inv m hm e, _, F', rfl, u⟩

/-- A write first. -/
theorem BInto.first {n : Node} {z : Val} (g : Good h (some p) w F) (h5 : 5 ≤ p) (ho : n.owner = (h.mem p).owner) (hw : leafOf n = some z) {x : Filled α} {y : Out α}
    (l : ∀ F', Good (h.set p n) (some p) z F' → ((h.set p n).mem p).owner = (h.mem p).owner → BInto X (h.set p n) F' p x y) : BInto X h F p x y := by
  have u := write_leaf g rfl h5 ho hw
  exact BInto.after (g.inv.set_st p n (fun h => by omega) ho) u (l _ u.good (by rw [set_mem_same]; exact ho))

end

section
variable {X : CId → Prop} {h : Heap} {q : Ptr} {F : List Ptr}

theorem bsonBinaryH_into (E : Env) (g : Good h (some q) .null F) (h5 : 5 ≤ q) (hb : (h.mem q).bin = []) (hm : ∀ d, (h.mem q).owner = some d → X d) (hid b : Bytes) :
    BInto X h F q (bbinT hid b) (bsonBinaryH hid b q h) := by
  unfold bsonBinaryH bbinT
  dsimp only
  refine BInto.first (n := { h.mem q with dt := .exBinary, ext := 5 }) (z := .exbin 5 []) g h5 rfl (by simp [leafOf, hb]) (fun F1 g1 ho => ?_)
  change BInto X _ F1 q _ ((Out.lift (uint32 hid b) (h.set q { h.mem q with dt := .exBinary, ext := 5 })).bind _)
  have hb1 : ((h.set q { h.mem q with dt := .exBinary, ext := 5 }).mem q).bin = [] := by rw [set_mem_same]; exact hb
  generalize h.set q { h.mem q with dt := .exBinary, ext := 5 } = h1 at g1 ho hb1 ⊢
  rw [← ho] at hm
  refine BInto.lift g1 rfl (fun n => BInto.lift g1 rfl (fun b => BInto.lift g1 rfl (fun sub => BInto.ite (fun _ => ?_) (fun _ => ?_))))
  · refine BInto.lift g1 rfl (fun b => BInto.lift g1 rfl (fun n => BInto.lift g1 rfl (fun b => BInto.ite (fun _ => BInto.err g1 rfl _) (fun _ => ?_))))
    refine BInto.first (n := { h1.mem q with dt := .binary, ext := 0 }) (z := .bin 0 []) g1 h5 rfl (by simp [leafOf, hb1]) (fun F2 g2 ho2 => ?_)
    rw [← ho2] at hm
    exact BInto.lift g2 rfl (fun d => BInto.run E g2 h5 (.setBinary d) hm rfl (fun _ => rfl) _)
  · exact BInto.lift g1 rfl (fun d => BInto.run E g1 h5 (.setBinary d) hm rfl (fun _ => rfl) _)

theorem bsonSimpleH_into (E : Env) (g : Good h (some q) .null F) (h5 : 5 ≤ q) (hb : (h.mem q).bin = []) (hm : ∀ d, (h.mem q).owner = some d → X d) (hid : Bytes) (ty : UInt8) (b : Bytes) :
    BInto X h F q (bsimpleT E hid ty b) (bsonSimpleH E hid ty b q h) := by
  have bin : ∀ (x : UInt8) (d : Bytes) (k : Nat), BInto X h F q (.ok k (.bin x d)) (.ok k (setBinary (h.upd q (fun n => { n with dt := .binary, ext := x })) q d)) := by
    intro x d k
    refine BInto.first (n := { h.mem q with dt := .binary, ext := x }) (z := .bin x []) g h5 rfl (by simp [leafOf, hb]) (fun F2 g2 ho2 => ?_)
    rw [← ho2] at hm
    exact BInto.run E g2 h5 (.setBinary d) hm rfl (fun _ => rfl) _
  unfold bsonSimpleH bsimpleT
  refine BInto.ite (fun _ => BInto.lift g rfl (fun w => BInto.run E g h5 (.setDouble _) hm rfl (fun _ => rfl) _)) (fun _ => ?_)
  refine BInto.ite (fun _ => BInto.lift g rfl (fun n => BInto.lift g rfl (fun s => BInto.run E g h5 (.setString _) hm rfl (fun _ => rfl) _))) (fun _ => ?_)
  refine BInto.ite (fun _ => bsonBinaryH_into E g h5 hb hm hid b) (fun _ => ?_)
  refine BInto.ite (fun _ => BInto.lift g rfl (fun d => bin 7 d _)) (fun _ => ?_)
  refine BInto.ite (fun _ => BInto.lift g rfl (fun x => ?_)) (fun _ => ?_)
  · by_cases hx : (x == 1) = true
    · simp only [hx, if_true]
      exact BInto.set (x := .tru) g h5 (by rfl) (by simp [leafOf]) _
    · simp only [hx]
      exact BInto.set (x := .fls) g h5 (by rfl) (by simp [leafOf]) _
  refine BInto.ite (fun _ => BInto.lift g rfl (fun w => BInto.run E g h5 (.setTime _) hm rfl (fun _ => rfl) _)) (fun _ => ?_)
  refine BInto.ite (fun _ => BInto.lift g rfl (fun w => BInto.run E g h5 (.setInt _) hm rfl (fun _ => rfl) _)) (fun _ => ?_)
  refine BInto.ite (fun _ => BInto.lift g rfl (fun x => BInto.set (n := { h.mem q with ext := 17, dt := .int, cell := BitVec.ofNat 64 x }) (x := .int 17 (BitVec.ofNat 64 x)) g h5 rfl (by simp [leafOf]) _)) (fun _ => ?_)
  refine BInto.ite (fun _ => BInto.lift g rfl (fun w => BInto.run E g h5 (.setInt _) hm rfl (fun _ => rfl) _)) (fun _ => ?_)
  refine BInto.ite (fun _ => BInto.lift g rfl (fun d => bin 19 d _)) (fun _ => ?_)
  exact BInto.same g rfl _

end

/-! ### Members and elements -/

/-- The child that `SetKeyCached` and `SetIndexCached` return. -/
structure ChildX (h : Heap) (F : List Ptr) (p : Ptr) (old : Option Val) (put : Val → Val) (t : VT) (q : Ptr) (h1 : Heap) : Prop where
  child : ∃ v1 F1 c Fq, Upd h F h1 (some p) v1 F1 ∧ Good h1 (some q) (slotOf t c old) Fq ∧ (∀ r ∈ Fq, r ∈ F1) ∧
    ∀ h2 w' Fq', Upd h1 Fq h2 (some q) w' Fq' → ∃ F', Upd h1 F1 h2 (some p) (put w') F'

section
variable {h : Heap} {p : Ptr} {v : Val} {F : List Ptr}

theorem ChildX.of {h1 : Heap} {put : Val → Val} {old : Option Val} {t : VT} {c : BitVec 64} {F1 : List Ptr} {i : Nat} {q : Ptr} (u : Upd h F h1 (some p) (put (slotOf t c old)) F1)
    (hk : (Val.kids (put (slotOf t c old)))[i]? = some (slotOf t c old)) (hs : ∀ w', Val.setKid (put (slotOf t c old)) i w' = put w')
    (hq : (Node.kids (h1.mem p))[i]? = some (some q)) : ChildX h F p old put t q h1 := by
  obtain ⟨b, Fq, hb, gq, hsub, hupd⟩ := u.good.kid hk
  rw [hq] at hb
  cases hb
  refine ⟨⟨_, F1, c, Fq, u, gq, hsub, fun h2 w' Fq' u2 => ?_⟩⟩
  obtain ⟨F', u'⟩ := hupd [] h2 w' Fq' u2 (by simp)
  rw [hs] at u'
  exact ⟨F', u'⟩

theorem ChildX.after {h0 : Heap} {F0 : List Ptr} {v0 : Val} {old : Option Val} {put : Val → Val} {t : VT} {q : Ptr} {h1 : Heap} (a : ChildX h0 F0 p old put t q h1)
    (u : Upd h F h0 (some p) v0 F0) : ChildX h F p old put t q h1 := by
  obtain ⟨v1, F1, w, Fq, u1, gq, hs, hu⟩ := a.child
  exact ⟨⟨v1, F1, w, Fq, UpdX.trans u u1, gq, hs, hu⟩⟩

theorem setIndexCached_childX (g : Good h (some p) v F) (h5 : 5 ≤ p) (idx : Int) (t : VT) (c : Option CId) (hc : ∀ d, c = some d → d < h.nextC) :
    ChildX h F p (arrOld (arrOf v) idx) (arrPut (arrOf v) idx) t (setIndexCached h p idx t c).1 (setIndexCached h p idx t c).2 := by
  obtain ⟨F0, u⟩ := toArrX g h5
  obtain ⟨hd, -⟩ := arr_first h h5
  have hn : (if (h.mem p).dt = .array then h else reset h p .array).nextC = h.nextC := by
    split
    · rfl
    · exact (Same.reset h p .array).nextC
  have e : setIndexCached h p idx t c = setIndexCached (if (h.mem p).dt = .array then h else reset h p .array) p idx t c := by
    unfold setIndexCached
    simp only [hd, if_true]
  rw [e]
  rw [← hn] at hc
  generalize (if (h.mem p).dt = .array then h else reset h p .array) = h0 at u hc
  obtain ⟨w, F1, u1, hkid, hs, -⟩ := setIndexCached_arr u.good idx t c hc
  obtain ⟨cell, rfl⟩ := Slot.iff.1 hs
  exact (ChildX.of u1 (kids_arrPut _ idx _) (setKid_arrPut _ idx _) hkid).after u

theorem setKeyCached_childX (E : Env) (g : Good h (some p) v F) (h5 : 5 ≤ p) (k : Bytes) (t : VT) (c : Option CId) (hc : ∀ d, c = some d → d < h.nextC) :
    match setKeyCached E h p k t c with
    | .ok (q, h1) => ChildX h F p (oldName E v k) (putName E v k) t q h1 ∧ ¬ (asIndex E k v = false ∧ oldName E v k = some .nil)
    | .panic => asIndex E k v = false ∧ oldName E v k = some .nil
    | _ => False := by
  have hdt := rep_dt g.rep
  by_cases ha : (h.mem p).dt = .array ∧ strIdx E k ≠ -1
  · have e' : setKeyCached E h p k t c = .ok (setIndexCached h p (strIdx E k) t (h.mem p).owner) := by
      unfold setKeyCached setIndex; rw [if_pos ha]
    obtain ⟨xs, rfl⟩ := vt_arr (hdt.symm.trans ha.1) (rep_ne_nil g.rep)
    have hb : asIndex E k (.arr xs) = true := by simp [asIndex, ha.2]
    have := setIndexCached_childX g h5 (strIdx E k) t (h.mem p).owner (fun d => g.inv.owner p d)
    rw [e']
    have e1 : oldName E (.arr xs) k = arrOld (arrOf (.arr xs)) (strIdx E k) := by simp only [oldName, hb, if_true]
    have e2 : putName E (.arr xs) k = arrPut (arrOf (.arr xs)) (strIdx E k) := by funext w; simp only [putName, hb, if_true]
    dsimp only
    rw [e1, e2]
    exact ⟨this, by simp [hb]⟩
  · obtain ⟨F0, u⟩ := toObjX g h5
    obtain ⟨hd, -⟩ := obj_first h h5
    have hb : asIndex E k v = false := by
      cases v <;> simp_all [asIndex, Val.vt]
    have e1 : oldName E v k = objOld E (objOf v).1 (objOf v).2 k := by simp only [oldName, hb]; rfl
    have e2 : putName E v k = objPut E (objOf v).1 (objOf v).2 k := by funext w; simp only [putName, hb]; rfl
    have hn : (if (h.mem p).dt = .object then h else reset h p .object).nextC = h.nextC := by
      split
      · rfl
      · exact (Same.reset h p .object).nextC
    have e' : setKeyCached E h p k t c = setKeyCached E (if (h.mem p).dt = .object then h else reset h p .object) p k t c := by
      by_cases hb : (h.mem p).dt = .object
      · rw [if_pos hb]
      · rw [if_neg hb] at hd ⊢
        exact setKeyCached_reset E h5 k t c hb ha
    rw [e', e1, e2]
    rw [← hn] at hc
    generalize (if (h.mem p).dt = .object then h else reset h p .object) = h0 at u hc
    generalize (objOf v).1 = ku at u ⊢
    generalize (objOf v).2 = kvs at u ⊢
    by_cases hnil : objOld E ku kvs k = some .nil
    · rw [setKeyCached_nil E u.good k t _ hnil]
      exact ⟨hb, hnil⟩
    · obtain ⟨q', h1', w, F1, he, u1, hkid, -, hs⟩ := setKeyCached_obj E u.good k t c hc hnil
      rw [he]
      obtain ⟨cell, rfl⟩ := Slot.iff.1 hs
      exact ⟨(ChildX.of u1 (kids_objPut E ku kvs k _) (setKid_objPut E ku kvs k _) hkid).after u, fun h => hnil h.2⟩

end

/-! ### Documents -/

/-- All decoders of one level of fuel. -/
structure BIntos (E : Env) (hid : Bytes) (X : CId → Prop) (c : Option CId) (fuel : Nat) : Prop where
  doc : ∀ S h b p w v F, canon w = canon v → Good h (some p) w F → 5 ≤ p → Mine X h F → Solid S h → (∀ d, c = some d → d < h.nextC) → S p →
    BInto X h F p (docT E hid fuel v b) (bsonDocH E hid c fuel b p h)
  docLoop : ∀ S h b l i p w v F, canon w = canon v → Good h (some p) w F → 5 ≤ p → Mine X h F → Solid S h → (∀ d, c = some d → d < h.nextC) → S p →
    BInto X h F p (docLoopT E hid fuel v b l i) (bsonDocLoopH E hid c fuel b l i p h)
  elem : ∀ S h ty b p w v F, canon w = canon v → (targetType ty = .null → v = .null) → Good h (some p) w F → 5 ≤ p → Mine X h F → Solid S h → (∀ d, c = some d → d < h.nextC) → S p →
    BInto X h F p (elemT E hid fuel ty v b) (bsonElemH E hid c fuel ty b p h)
  arr : ∀ S h b p w v F, canon w = canon v → Good h (some p) w F → 5 ≤ p → Mine X h F → Solid S h → (∀ d, c = some d → d < h.nextC) → S p →
    BInto X h F p (barrT E hid fuel v b) (bsonArrH E hid c fuel b p h)
  arrLoop : ∀ S h b l i p w v F, canon w = canon v → Good h (some p) w F → 5 ≤ p → Mine X h F → Solid S h → (∀ d, c = some d → d < h.nextC) → S p →
    BInto X h F p (barrLoopT E hid fuel v b l i) (bsonArrLoopH E hid c fuel b l i p h)

theorem canon_null_eq {w : Val} (h : canon w = .null) : w = .null := by cases w <;> simp [canon] at h ⊢

theorem targetType_sure (ty : UInt8) : numeric (targetType ty) = false := by
  unfold targetType
  split
  · rfl
  · split <;> rfl

theorem slotOf_null (c : BitVec 64) (old : Option Val) : slotOf .null c old = .null := by
  cases old with
  | none => rfl
  | some x =>
    simp only [slotOf]
    split
    · rename_i h
      cases x <;> simp_all [Val.vt]
    · rfl

theorem slotOf_like {t : VT} (ht : numeric t = false) (c c' : BitVec 64) {a b : Option Val} (h : a.map canon = b.map canon) : canon (slotOf t c a) = canon (slotOf t c' b) := by
  have : ∀ c old, slotOf t c old = slotOf t 0 old := by
    intro c old
    cases old <;> simp only [slotOf, blankVal_sure ht c 0]
  rw [this c, this c', ← canon_slotOf, h, canon_slotOf]

/-- An element, then the rest of the loop. -/
theorem BInto.elem {X : CId → Prop} {S S1 : Ptr → Prop} {h h1 : Heap} {F : List Ptr} {p q : Ptr} (m : Mine X h F) (st : Step X h h1) {old : Option Val} {put put' : Val → Val}
    {t : VT} (ch : ChildX h F p old put' t q h1) (hp : ∀ {a b}, canon a = canon b → canon (put' a) = canon (put b)) {x : Filled Nat} {y : Out Nat}
    (hy : ∀ c Fq, Good h1 (some q) (slotOf t c old) Fq → Mine X h1 Fq → BInto X h1 Fq q x y) (k : HoldS S1 h1 y) (hS : ∀ x, S x → S1 x)
    {f : Nat → Val → Filled Unit} {f' : Nat → Heap → Out Unit}
    (hf : ∀ n v h2 w2 F2 S2, canon w2 = canon v → Step X h h2 → Good h2 (some p) w2 F2 → Mine X h2 F2 → Solid S2 h2 → (∀ x, S x → S2 x) → BInto X h2 F2 p (f n v) (f' n h2)) :
    BInto X h F p ((x.inside put).bind f) (y.bind f') := by
  obtain ⟨v1, F1, c, Fq, u1, gq, hs, hu⟩ := ch.child
  have m1 := m.step u1 st
  refine BInto.after st u1 (BInto.bind (BInto.inside hp hu (hy c Fq gq (m1.sub hs))) k ?_)
  intro n v h2 v2 F2 S2 hc st2 u2 s2 hS2
  exact hf n v h2 v2 F2 S2 hc (st.trans st2) u2.good (m1.step u2 st2) s2 (fun x hx => hS2 x (hS x hx))

theorem old_like (E : Env) {w v : Val} (hv : canon w = canon v) (k : Bytes) : (oldName E w k).map canon = (oldName E v k).map canon := by
  rw [← oldName_canon, ← oldName_canon, hv]

theorem arrOld_like {w v : Val} (hv : canon w = canon v) (i : Int) : (arrOld (arrOf w) i).map canon = (arrOld (arrOf v) i).map canon := by
  rw [← arrOld_canon, ← arrOld_canon, ← arrOf_canon, ← arrOf_canon, hv]

theorem arrPut_like {w v a b : Val} (hv : canon w = canon v) (h : canon a = canon b) (i : Int) : canon (arrPut (arrOf w) i a) = canon (arrPut (arrOf v) i b) := by
  rw [canon_arrPut, canon_arrPut, ← arrOf_canon, ← arrOf_canon, hv, h]

theorem nilName_like (E : Env) {w v : Val} (hv : canon w = canon v) (k : Bytes) :
    (asIndex E k w = false ∧ oldName E w k = some .nil) ↔ (asIndex E k v = false ∧ oldName E v k = some .nil) := by
  have h := old_like E hv k
  rw [← asIndex_canon E k w, hv, asIndex_canon]
  refine and_congr_right (fun _ => ?_)
  cases h1 : oldName E w k <;> cases h2 : oldName E v k <;> rw [h1, h2] at h <;> simp at h ⊢
  rename_i a b
  constructor
  · rintro rfl; exact canon_nil.1 h.symm
  · rintro rfl; exact canon_nil.1 h

theorem bintos (E : Env) (hid : Bytes) (X : CId → Prop) (c : Option CId) (hX : ∀ d, c = some d → X d) : ∀ fuel, BIntos E hid X c fuel := by
  intro fuel
  induction fuel with
  | zero =>
    refine ⟨?_, ?_, ?_, ?_, ?_⟩ <;> intros <;> simp [docT, docLoopT, elemT, barrT, barrLoopT, bsonDocH, bsonDocLoopH, bsonElemH, bsonArrH, bsonArrLoopH, BInto]
  | succ fuel ih =>
    refine ⟨?_, ?_, ?_, ?_, ?_⟩
    · intro S h b p w v F hv g h5 m s hc hp
      rw [bsonDocH, docT]
      refine BInto.ite (fun _ => BInto.err g hv _) (fun _ => BInto.lift g hv (fun l => BInto.ite (fun _ => BInto.err g hv _) (fun _ => ?_)))
      exact BInto.unit (ih.docLoop S h b l 4 p w v F hv g h5 m s hc hp) l
    · intro S h b l i p w v F hv g h5 m s hc hp
      rw [bsonDocLoopH, docLoopT]
      refine BInto.ite (fun _ => BInto.lift g hv (fun ty => ?_)) (fun _ => BInto.same g hv _)
      cases hk : (b.drop (i + 1)).idxOf? 0 with
      | none => exact BInto.err g hv _
      | some k =>
        dsimp only
        generalize hkey : (b.drop (i + 1)).take k = key
        have hpF := rep_mem g.rep h5
        have ch := setKeyCached_childX E g h5 key (targetType ty) c hc
        have hnil := nilName_like E hv key
        cases e : setKeyCached E h p key (targetType ty) c with
        | ok r =>
          obtain ⟨q, h1⟩ := r
          rw [e] at ch
          obtain ⟨ch, hn⟩ := ch
          rw [hnil] at hn
          rw [if_neg hn]
          obtain ⟨S1, f⟩ := s.setKeyCached g.inv E hp _ _ c hc e
          have st := g.inv.setKeyCached_st (X := X) E p _ _ c hc hX (m.owner p hpF) e
          have hc1 : ∀ d, c = some d → d < h1.nextC := fun d e => Nat.lt_of_lt_of_le (hc d e) st.nextC
          refine BInto.elem m st ch (fun hab => putName_like E key hv hab) (fun cell Fq gq mq => ih.elem S1 h1 ty _ q _ _ Fq
              (slotOf_like (targetType_sure ty) _ _ (old_like E hv key)) (fun ht => by rw [ht, slotOf_null]) gq f.ge mq f.solid hc1 f.mem)
            ((bkeeps E hid c fuel).elem S1 h1 ty _ q st.inv f.solid hc1 f.mem f.ge) f.le (fun n v2 h2 w2 F2 S2 hv2 st2 g2 m2 s2 hS2 => ?_)
          exact BInto.ite (fun _ => BInto.same g2 hv2 _)
            (fun _ => ih.docLoop S2 h2 b l _ p w2 v2 F2 hv2 g2 h5 m2 s2 (fun d e => Nat.lt_of_lt_of_le (hc d e) st2.nextC) (hS2 p hp))
        | err _ => rw [e] at ch; exact ch.elim
        | panic =>
          rw [e] at ch
          rw [if_pos (hnil.1 ch)]
          trivial
        | loop => rw [e] at ch; exact ch.elim
    · intro S h ty b p w v F hv hn g h5 m s hc hp
      rw [bsonElemH, elemT]
      refine BInto.ite (fun _ => ih.arr S h b p w v F hv g h5 m s hc hp) (fun h1 => BInto.ite (fun _ => ih.doc S h b p w v F hv g h5 m s hc hp) (fun h2 => ?_))
      have ht : targetType ty = .null := by unfold targetType; rw [if_neg h1, if_neg h2]
      have hw : w = .null := canon_null_eq (by rw [hv, hn ht]; rfl)
      subst hw
      exact bsonSimpleH_into E g h5 (s.bin p hp (rep_dt g.rep)) (m.owner p (rep_mem g.rep h5)) hid ty b
    · intro S h b p w v F hv g h5 m s hc hp
      rw [bsonArrH, barrT]
      refine BInto.lift g hv (fun l => BInto.ite (fun _ => BInto.err g hv _) (fun _ => ?_))
      exact BInto.unit (ih.arrLoop S h b l 4 p w v F hv g h5 m s hc hp) l
    · intro S h b l i p w v F hv g h5 m s hc hp
      rw [bsonArrLoopH, barrLoopT]
      refine BInto.ite (fun _ => BInto.lift g hv (fun ty => ?_)) (fun _ => BInto.same g hv _)
      cases hk : (b.drop (i + 1)).idxOf? 0 with
      | none => exact BInto.err g hv _
      | some k =>
        dsimp only
        refine BInto.ite (fun _ => BInto.err g hv _) (fun _ => ?_)
        generalize ((E.strToInt ((b.drop (i + 1)).take k)).map BitVec.toInt).getD (-1) = idx
        obtain ⟨S1, f⟩ := s.setIndexCached g.inv hp h5 idx (targetType ty) c hc
        have st := g.inv.setIndexCached_st (X := X) p idx (targetType ty) c hc hX
        have ch := setIndexCached_childX g h5 idx (targetType ty) c hc
        generalize setIndexCached h p idx (targetType ty) c = r at f st ch
        have hc1 : ∀ d, c = some d → d < r.2.nextC := fun d e => Nat.lt_of_lt_of_le (hc d e) st.nextC
        refine BInto.elem m st ch (fun hab => arrPut_like hv hab idx) (fun cell Fq gq mq => ih.elem S1 r.2 ty _ r.1 _ _ Fq
            (slotOf_like (targetType_sure ty) _ _ (arrOld_like hv idx)) (fun ht => by rw [ht, slotOf_null]) gq f.ge mq f.solid hc1 f.mem)
          ((bkeeps E hid c fuel).elem S1 r.2 ty _ r.1 st.inv f.solid hc1 f.mem f.ge) f.le (fun n v2 h2 w2 F2 S2 hv2 st2 g2 m2 s2 hS2 => ?_)
        exact BInto.ite (fun _ => BInto.same g2 hv2 _)
          (fun _ => ih.arrLoop S2 h2 b l _ p w2 v2 F2 hv2 g2 h5 m2 s2 (fun d e => Nat.lt_of_lt_of_le (hc d e) st2.nextC) (hS2 p hp))

/-- `LoadFromBson` after the value has been cleared. -/
theorem loadBsonH_into (E : Env) (hid : Bytes) {h : Heap} {p : Ptr} {w v : Val} {F : List Ptr} {X : CId → Prop} (g : Good (Heap.clear h p) (some p) w F)
    (hv : canon w = canon (clearVal v)) (h5 : 5 ≤ p) (m : Mine X (Heap.clear h p) F) (hlt : p < h.next) (b : Bytes) :
    BInto X (Heap.clear h p) F p (loadBsonT E hid v b) (loadBsonH E hid h p b) := by
  unfold loadBsonH loadBsonT
  refine BInto.ite (fun _ => BInto.same g hv _) (fun _ => BInto.unit ?_ _)
  exact (bintos E hid X ((Heap.clear h p).mem p).owner (m.owner p (rep_mem g.rep h5)) (2 * b.length + 2)).doc _ _ b p w _ F hv g h5 m (solid_clear hlt)
    (fun d hd => g.inv.owner p d hd) rfl

end Dxs.Heap
