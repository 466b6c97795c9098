import Verif.Tree.Parse

/-!
# Programs that parse, when the memory decides nothing

The statements of `Verif.Tree.Parse` that show nothing of the memory: new values from MessagePack, JSON, BSON and YAML, loading accepted documents
and any YAML text into whole values, `ForcePath`, and storing Go data, together with those of `Verif.Tree.Det`.
-/

namespace Dxs.Heap

/-! ## The visible part -/

theorem takes_canon {w x : Val} : Takes (canon w) x ↔ Takes w x := by
  cases x <;> simp only [Takes, canon_vt]
  cases w <;> simp [canon]

theorem takesJ_canon {w x : Val} : TakesJ (canon w) x ↔ TakesJ w x := by
  cases x <;> simp only [TakesJ, canon_vt]
  cases w <;> simp [canon]

theorem takesB_canon {w x : Val} : TakesB (canon w) x ↔ TakesB w x := by
  simp only [TakesB, canon_vt, ne_eq, canon_nil]

theorem boxAt_canon (E : Env) (v : Val) (k : Bytes) : boxAt E (canon v) k = (boxAt E v k).map canon := by
  cases v <;> try rfl
  · simp only [boxAt, canon, objOld_canon]
    cases objOld E _ _ k with
    | none => rfl
    | some x =>
      simp only [Option.map_some, Option.filter_some, canon_vt]
      split <;> rfl
  · rename_i xs
    simp only [boxAt, canon, canonL_length]
    split
    · simp only [canonL_eq, List.getElem?_map]
      cases xs[(strIdx E k).toNat]? with
      | none => rfl
      | some x =>
        simp only [Option.map_some, Option.filter_some, canon_vt]
        split <;> rfl
    · rfl

theorem nextBox_canon (E : Env) (v : Val) (k : Bytes) : nextBox E (canon v) k = canon (nextBox E v k) := by
  unfold nextBox
  rw [boxAt_canon]
  cases boxAt E v k <;> rfl

theorem putKey_canon (E : Env) (v : Val) (k : Bytes) (w : Val) : canon (putKey E v k w) = putKey E (canon v) k (canon w) := by
  cases v <;> simp only [putKey, canon] <;> try exact canon_objPut _ _ _ _ _
  split
  · exact canon_objPut _ _ _ _ _
  · exact canon_arrPut _ _ _

theorem forceVal_canon (E : Env) : ∀ (path : List Bytes) (v w : Val), canon (forceVal E v path w) = forceVal E (canon v) path (canon w)
  | [], _, _ => rfl
  | [k], v, w => putKey_canon E v k w
  | k :: k2 :: path, v, w => by
    simp only [forceVal, putKey_canon, nextBox_canon, forceVal_canon E (k2 :: path)]

theorem oldAt_canon (E : Env) (v : Val) (k : Bytes) : oldAt E (canon v) k = (oldAt E v k).map canon := by
  cases v <;> try rfl
  · simp only [oldAt, canon, objOld_canon]
  · simp only [oldAt, canon, arrOld_canon]
    split <;> rfl

theorem forceOld_canon (E : Env) : ∀ (path : List Bytes) (v : Val), forceOld E (canon v) path = (forceOld E v path).map canon
  | [], _ => rfl
  | [k], v => oldAt_canon E v k
  | k :: k2 :: path, v => by simp only [forceOld, nextBox_canon, forceOld_canon E (k2 :: path)]

theorem stepOk_canon (E : Env) (v : Val) (k : Bytes) : StepOk E (canon v) k ↔ StepOk E v k := by
  cases v <;> try exact Iff.rfl
  · simp only [StepOk, canon, objOld_canon]
    cases objOld E _ _ k with
    | none => simp
    | some x => simp [canon_nil]
  · simp only [StepOk, canon, canonL_length]

theorem forceable_canon (E : Env) : ∀ (path : List Bytes) (v : Val), Forceable E (canon v) path ↔ Forceable E v path
  | [], _ => Iff.rfl
  | [k], v => by
    simp only [Forceable, stepOk_canon]
    cases v <;> simp [canon]
  | k :: k2 :: path, v => by simp only [Forceable, stepOk_canon, nextBox_canon, forceable_canon E (k2 :: path)]

/-! ## The statements -/

/-- The result of a parser. -/
def Trees.parsed (T : Trees) (i : Nat) : Res Val → Res Trees
  | .ok v => .ok (T.put i v)
  | .err _ => .ok (T.put i .nil)
  | .panic => .panic
  | .loop => .loop

/-- Something happens to the value at a position. -/
def Trees.onNode (T : Trees) (i : Nat) (π : List Nat) (f : Val → Res Val) : Res Trees :=
  (T.walk i π).bind fun v => (f v).bind fun w => .ok (T.put i (Val.subst (T i) π w))

/-- A statement on trees, without memory. Only for statements that are `sure`. -/
def PCmd.onTree (E : Env) (T : Trees) : PCmd → Res Trees
  | .cmd c => c.plain.onTree E {} T
  | .newMsgPack i b _ _ => T.parsed i (MsgPack.newValueFromMsgPack E b)
  | .newJson i b _ _ _ => T.parsed i (Json.newValueFromJson E b)
  | .newBson i hid b _ _ => T.parsed i (Bson.newValueFromBson E hid b)
  | .loadMsgPack i π b => T.onNode i π fun v => (loadMsgPackT E (canon v) b).left
  | .loadJson i π b _ => (T.walk i π).bind fun v => T.parsed i ((loadJsonT E (canon v) b).value.bind fun w => .ok (Val.subst (T i) π w))
  | .loadBson i π hid b => T.onNode i π fun v => (loadBsonT E hid (canon v) b).left
  | .forcePath i π t path => (T.walk i π).bind fun v => .ok (T.put i (Val.subst (T i) π (forceVal E v path (slotOf t 0 (forceOld E v path)))))
  | .newYaml i b _ _ _ => if 42 ∈ b then .ok T else T.parsed i ((Yaml.newTree E (b.length + 1) b).bind fun w => .ok (w.getD .nil))
  | .loadYaml i π b _ _ => (T.walk i π).bind fun v => if 42 ∈ b then .ok T else (loadYamlVal E b v).bind fun w => .ok (T.put i (Val.subst (T i) π w))
  | .setValue i π g => T.onNode i π fun v => Reflect.goVal E v g
  | .setKeyvalue i π k g _ => T.onNode i π fun v => Reflect.goKey E v k g
  | .setIndexvalue i π n g _ => T.onNode i π fun v => Reflect.goIdx E v n g
  | .newFrom i g _ _ => (Reflect.goVal E (.obj false []) g).bind fun w => .ok (T.put i w)
  | .merge _ _ _ _ _ _ => .ok T

/-- Statements that show nothing of the memory. -/
def PCmd.sure (E : Env) (T : Trees) : PCmd → Prop
  | .cmd c => c.sure E T = true
  | .newMsgPack _ _ _ _ | .newJson _ _ _ _ _ | .newBson _ _ _ _ _ | .newYaml _ _ _ _ _ => True
  | .forcePath i π t path => ∀ v, T.walk i π = .ok v → isConst v = false ∧ Forceable E v path ∧ (numeric t = false ∨ hasType t (forceOld E v path) = true)
  | .loadMsgPack i π _ | .loadJson i π _ _ | .loadBson i π _ _ | .loadYaml i π _ _ _ => π = [] ∧ ∀ v, T.walk i [] = .ok v → isConst v = false
  | .setValue i π _ | .setKeyvalue i π _ _ _ | .setIndexvalue i π _ _ _ => ∀ v, T.walk i π = .ok v → isConst v = false
  | .newFrom _ g _ _ => Reflect.Fills g = true
  | .merge _ _ _ _ _ _ => False

/-- A program on trees. -/
def ptreeRun (E : Env) : Trees → List PCmd → Res Trees
  | T, [] => .ok T
  | T, c :: cs => (c.onTree E T).bind fun T => ptreeRun E T cs

/-- Every statement that is reached is sure. -/
def psureAll (E : Env) : Trees → List PCmd → Prop
  | _, [] => True
  | T, c :: cs => c.sure E T ∧ ∀ T', c.onTree E T = .ok T' → psureAll E T' cs

/-- The same statement without caches. -/
def PCmd.plain : PCmd → PCmd
  | .cmd c => .cmd c.plain
  | .newMsgPack i b _ _ => .newMsgPack i b false none
  | .newJson i b _ _ _ => .newJson i b false none (fun _ => [])
  | .newBson i hid b _ _ => .newBson i hid b false none
  | .loadJson i π b _ => .loadJson i π b (fun _ => [])
  | .newYaml i b _ _ _ => .newYaml i b false (fun _ => none) .fresh
  | .loadYaml i π b _ _ => .loadYaml i π b (fun _ => none) .fresh
  | .setKeyvalue i π k g _ => .setKeyvalue i π k g false
  | .setIndexvalue i π n g _ => .setIndexvalue i π n g false
  | .newFrom i g _ _ => .newFrom i g false none
  | c => c

theorem walk_like {T T0 : Trees} (hT : canonT T = canonT T0) (i : Nat) (π : List Nat) : canonR (T.walk i π) = canonR (T0.walk i π) := by
  rw [← walk_canon, ← walk_canon, hT]

theorem walk_like_ok {T T0 : Trees} (hT : canonT T = canonT T0) {i : Nat} {π : List Nat} {v : Val} (h : T.walk i π = .ok v) : ∃ v0, T0.walk i π = .ok v0 ∧ canon v = canon v0 := by
  have := walk_like hT i π
  rw [h] at this
  cases h0 : T0.walk i π <;> rw [h0] at this <;> simp [canonR] at this
  exact ⟨_, rfl, this⟩

theorem walk_like_panic {T T0 : Trees} (hT : canonT T = canonT T0) {i : Nat} {π : List Nat} (h : T.walk i π = .panic) : T0.walk i π = .panic := by
  have := walk_like hT i π
  rw [h] at this
  cases h0 : T0.walk i π <;> rw [h0] at this <;> simp [canonR] at this ⊢

theorem put_like {T T0 : Trees} (hT : canonT T = canonT T0) (i : Nat) {v w : Val} (h : canon v = canon w) : canonT (T.put i v) = canonT (T0.put i w) := by
  rw [canonT_put, canonT_put, hT, h]

theorem decoded_like {T T0 T1 : Trees} (hT : canonT T = canonT T0) {i : Nat} {r : Res Val} (h : T.decoded i r T1) : ∃ T2, T0.parsed i r = .ok T2 ∧ canonT T1 = canonT T2 := by
  cases r with
  | ok v => obtain ⟨w, hw, rfl⟩ := h; exact ⟨_, rfl, put_like hT i hw⟩
  | err e => cases h; exact ⟨_, rfl, put_like hT i rfl⟩
  | panic => exact h.elim
  | loop => exact h.elim

theorem loadYamlVal_blank {E : Env} {b : Bytes} (h : b.dropWhile Yaml.isWB = []) (v : Val) : loadYamlVal E b v = .ok (clearVal v) := by
  unfold loadYamlVal Yaml.loadTree
  rw [if_pos h]

theorem loadYamlVal_same {E : Env} {b : Bytes} (h : b.dropWhile Yaml.isWB ≠ []) (v v' : Val) : loadYamlVal E b v = loadYamlVal E b v' := by
  unfold loadYamlVal Yaml.loadTree
  rw [if_neg h, if_neg h]

theorem loadYamlVal_like {E : Env} {b : Bytes} {v v' w : Val} (hv : canon v = canon v') (h : loadYamlVal E b v = .ok w) : ∃ w', loadYamlVal E b v' = .ok w' ∧ canon w = canon w' := by
  by_cases hb : b.dropWhile Yaml.isWB = []
  · rw [loadYamlVal_blank hb] at h
    cases h
    exact ⟨_, loadYamlVal_blank hb v', by rw [clear_canon, clear_canon, hv]⟩
  · exact ⟨w, by rw [← h]; exact loadYamlVal_same hb _ _, rfl⟩

/-- Go data is stored. -/
theorem node_like {T T0 T1 : Trees} (hT : canonT T = canonT T0) {i : Nat} {π : List Nat} {f : Val → Res Val} {R : Val → Val → Prop}
    (hf : ∀ v w v0, R v w → canon v = canon v0 → ∃ w0, f v0 = .ok w0 ∧ canon w = canon w0)
    (hs : ∀ v, T0.walk i π = .ok v → isConst v = false) (h : T.at i π (fun v => isConst v) R T1) : ∃ T2, T0.onNode i π f = .ok T2 ∧ canonT T1 = canonT T2 := by
  obtain ⟨v, hv, h⟩ := h
  obtain ⟨v0, h0, hc⟩ := walk_like_ok hT hv
  rcases h with ⟨h, -⟩ | ⟨w, hw, rfl⟩
  · rw [← isConst_canon, hc, isConst_canon, hs v0 h0] at h; cases h
  · obtain ⟨w0, e, hcw⟩ := hf v w v0 hw hc
    refine ⟨T0.put i (Val.subst (T0 i) π w0), ?_, put_like hT i ?_⟩
    · unfold Trees.onNode
      rw [h0]
      show (f v0).bind _ = _
      rw [e]; rfl
    · rw [subst_canon, subst_canon, hcw, show canon (T i) = canon (T0 i) from congrFun hT i]

theorem stores_like {r r0 : Res Val} {w : Val} (h : stores r w) (e : canonR r = canonR r0) : ∃ w0, r0 = .ok w0 ∧ canon w = canon w0 := by
  obtain ⟨w1, rfl, hc⟩ := h
  obtain ⟨w0, e0, h0⟩ := Reflect.canonR_ok e rfl
  exact ⟨w0, e0, hc.trans h0⟩

theorem at_some {i : Nat} {R : Val → Val → Prop} {T T1 : Trees} (h : T.at i [] (fun v => isConst v ∨ ([] : List Nat) ≠ []) R T1) : T.at i [] (fun v => isConst v) R T1 :=
  Trees.at_mono h (fun _ h => h.elim id (fun h => absurd rfl h))

/-- What a sure statement means is determined by what is visible. -/
theorem PCmd.means_like (E : Env) (c : PCmd) {T T0 T1 : Trees} (hT : canonT T = canonT T0) (hs : c.sure E T0) (h : c.means E T T1) :
    ∃ T2, c.onTree E T0 = .ok T2 ∧ canonT T1 = canonT T2 := by
  cases c with
  | cmd c =>
    obtain ⟨o, h⟩ := h
    have hs : c.sure E T0 = true := hs
    have hsT : c.sure E T = true := by rw [← Cmd.sure_canon, hT, Cmd.sure_canon]; exact hs
    have hsP : c.plain.sure E T0 = true := by
      have := hs
      cases c <;> first | exact this | rfl
    have h1 := Cmd.det E c o {} T hsT
    have h2 := Cmd.det E c.plain {} {} T0 hsP
    have hpp : c.plain.plain = c.plain := by cases c <;> rfl
    rw [hpp] at h2
    rw [hT, ← h2, h] at h1
    show ∃ T2, c.plain.onTree E {} T0 = .ok T2 ∧ _
    cases e : c.plain.onTree E {} T0 <;> rw [e] at h1 <;> simp [canonTR] at h1
    exact ⟨_, rfl, h1⟩
  | newMsgPack i b cached pick => exact (decoded_like hT h)
  | newJson i b cached pick junk => exact (decoded_like hT h)
  | newBson i hid b cached pick => exact (decoded_like hT h)
  | loadMsgPack i π b => obtain ⟨rfl, hs⟩ := hs; exact node_like hT (fun v w v0 h hc => stores_like h (by rw [hc])) hs (at_some h)
  | loadBson i π hid b => obtain ⟨rfl, hs⟩ := hs; exact node_like hT (fun v w v0 h hc => stores_like h (by rw [hc])) hs (at_some h)
  | loadJson i π b junk =>
    obtain ⟨rfl, hs⟩ := hs
    rcases h with h | ⟨v, e, hv, he, rfl⟩
    · obtain ⟨v, hv, h⟩ := at_some h
      obtain ⟨v0, h0, hc⟩ := walk_like_ok hT hv
      rcases h with ⟨h, -⟩ | ⟨w, ⟨w0, hw, hcw⟩, rfl⟩
      · rw [← isConst_canon, hc, isConst_canon, hs v0 h0] at h; cases h
      · refine ⟨T0.put i w0, ?_, put_like hT i hcw⟩
        rw [hc] at hw
        simp only [PCmd.onTree, h0]
        show T0.parsed i ((loadJsonT E (canon v0) b).value.bind _) = _
        rw [hw]; rfl
    · obtain ⟨v0, h0, hc⟩ := walk_like_ok hT hv
      refine ⟨T0.put i .nil, ?_, put_like hT i rfl⟩
      rw [hc] at he
      simp only [PCmd.onTree, h0]
      show T0.parsed i ((loadJsonT E (canon v0) b).value.bind _) = _
      rw [he]; rfl
  | forcePath i π t path =>
    obtain ⟨v, hv, h⟩ := h
    obtain ⟨v0, h0, hc⟩ := walk_like_ok hT hv
    obtain ⟨h1, hf, hn⟩ := hs v0 h0
    have hf' : Forceable E v path := by rw [← forceable_canon, hc, forceable_canon]; exact hf
    rcases h with ⟨h, -⟩ | ⟨w, hw, rfl⟩
    · rw [← isConst_canon, hc, isConst_canon, h1] at h; cases h
    · obtain ⟨c, rfl⟩ := hw hf'
      refine ⟨T0.put i (Val.subst (T0 i) π (forceVal E v0 path (slotOf t 0 (forceOld E v0 path)))), ?_, put_like hT i ?_⟩
      · show (T0.walk i π).bind _ = _
        rw [h0]; rfl
      · have ho : (forceOld E v path).map canon = (forceOld E v0 path).map canon := by rw [← forceOld_canon, ← forceOld_canon, hc]
        have e1 : canon (slotOf t c (forceOld E v path)) = canon (slotOf t 0 (forceOld E v0 path)) := by
          rw [← canon_slotOf, ho, canon_slotOf, slotOf_sure hn c 0]
        rw [subst_canon, subst_canon, forceVal_canon, forceVal_canon, hc, e1, show canon (T i) = canon (T0 i) from congrFun hT i]
  | newYaml i b cached pick p =>
    simp only [PCmd.means] at h
    simp only [PCmd.onTree]
    split
    · rename_i hb
      rw [if_pos hb] at h
      rw [h]
      exact ⟨T0, rfl, hT⟩
    · rename_i hb
      rw [if_neg hb] at h
      cases e : Yaml.newTree E (b.length + 1) b with
      | ok w =>
        rw [e] at h
        rw [h.2]
        exact ⟨_, rfl, put_like hT i rfl⟩
      | err _ =>
        rw [e] at h
        rw [show T1 = T.put i .nil from h]
        exact ⟨_, rfl, put_like hT i rfl⟩
      | panic => rw [e] at h; exact h.elim
      | loop => rw [e] at h; exact h.elim
  | loadYaml i π b pick p =>
    obtain ⟨rfl, hs⟩ := hs
    obtain ⟨v, hv, h⟩ := h
    obtain ⟨v0, h0, hc⟩ := walk_like_ok hT hv
    simp only [PCmd.onTree, h0]
    show ∃ T2, (if 42 ∈ b then .ok T0 else (loadYamlVal E b v0).bind fun w => .ok (T0.put i w)) = .ok T2 ∧ _
    have h1 := hs v0 h0
    rcases h with ⟨h | h | h, rfl⟩ | ⟨w, hw, rfl⟩
    · rw [← isConst_canon, hc, isConst_canon, h1] at h; cases h
    · exact absurd rfl h
    · rw [if_pos h]; exact ⟨T0, rfl, hT⟩
    · obtain ⟨hb, hw⟩ := hw
      obtain ⟨w', h2, hcw⟩ := loadYamlVal_like hc hw
      rw [if_neg hb, h2]
      exact ⟨_, rfl, put_like hT i hcw⟩
  | setValue i π g => exact node_like hT (fun v w v0 h hc => stores_like h.1 (Reflect.goVal_like g hc)) hs h
  | setKeyvalue i π k g own => exact node_like hT (fun v w v0 h hc => stores_like h.1 (Reflect.goKey_like g hc k)) hs h
  | setIndexvalue i π n g own => exact node_like hT (fun v w v0 h hc => stores_like h.1 (Reflect.goIdx_like g hc n)) hs h
  | newFrom i g cached pick =>
    obtain ⟨w, ⟨c, h1⟩, -, rfl⟩ := h
    have h2 : stores (Reflect.goVal E (.obj false []) g) w := by
      cases cached
      · exact h1
      · rw [if_pos rfl, Reflect.goVal_new hs] at h1; exact h1
    obtain ⟨w0, e, hc⟩ := h2
    refine ⟨T0.put i w0, ?_, put_like hT i hc⟩
    simp only [PCmd.onTree, e]; rfl
  | merge => exact hs.elim

section
variable {s : St} {L : Nat → Option Live} {T T0 : Trees}

/-- Both fail, or the first gives a result. -/
def Fails (e : Res St) (t : Res Trees) : Prop :=
  match e with
  | .ok _ => True
  | .panic => t = .panic
  | .loop => t = .loop
  | .err _ => False

/-- A statement that parses a new value. -/
theorem take_out {i : Nat} {d : Res Val} {y : Out (Option Ptr)} {e : Res St} (ha : ∀ a h, y = .ok a h → ∃ s', e = .ok s') (hb : ∀ a h, y = .err a h → ∃ s', e = .ok s')
    (hp : y = .panic → e = .panic ∧ d = .panic) (hl : y = .loop → e = .loop ∧ d = .loop) :
    Fails e (T0.parsed i d) := by
  cases y with
  | ok a h => obtain ⟨s', rfl⟩ := ha a h rfl; trivial
  | err a h => obtain ⟨s', rfl⟩ := hb a h rfl; trivial
  | panic => obtain ⟨rfl, rfl⟩ := hp rfl; rfl
  | loop => obtain ⟨rfl, rfl⟩ := hl rfl; rfl

theorem loads_bad {h : Heap} {d : Res Val} {y : Out (Option Ptr)} (l : Loads h d y) : (y = .panic → d = .panic) ∧ (y = .loop → d = .loop) := by
  match d, y, l with
  | .ok v, .ok a h', _ => exact ⟨nofun, nofun⟩
  | .err e, .err e' h', _ => exact ⟨nofun, nofun⟩
  | .panic, .panic, _ => exact ⟨fun _ => rfl, nofun⟩
  | .loop, .loop, _ => exact ⟨nofun, fun _ => rfl⟩

theorem loadsX_bad {h : Heap} {d : Res Val} {y : Out (Option Ptr)} (l : LoadsX h d y) : (y = .panic → d = .panic) ∧ (y = .loop → d = .loop) := by
  match d, y, l with
  | .ok v, .ok a h', _ => exact ⟨nofun, nofun⟩
  | .err e, .err e' h', _ => exact ⟨nofun, nofun⟩
  | .panic, .panic, _ => exact ⟨fun _ => rfl, nofun⟩
  | .loop, .loop, _ => exact ⟨nofun, fun _ => rfl⟩

/-- Go data is stored at a position. -/
theorem node_out (hT : Holds s T) (S : Sound s L) (hc : canonT T = canonT T0) {i : Nat} {π : List Nat} {f : Ptr → Res Heap} {t : Val → Res Val}
    (h : ∀ q v v0 F, 5 ≤ q → Good s.heap (some q) v F → canon v = canon v0 → Reflect.Does s.heap F q (t v0) (f q)) : Fails (s.onNode i π f) (T0.onNode i π t) := by
  have hw := hT.walk S i π
  unfold St.onNode Trees.onNode
  cases e : s.walk i π with
  | ok q =>
    rw [e] at hw
    obtain ⟨v, G, hv, g, -, -⟩ := hw
    obtain ⟨v0, h0, hc0⟩ := walk_like_ok hc hv
    simp only [Res.bind_ok]
    split
    · trivial
    · rename_i hsh
      have d := h q v v0 G (ge_of hsh) g hc0
      rw [h0]
      show Fails _ ((t v0).bind _)
      generalize f q = y at d
      match y, d with
      | .ok _, _ => trivial
      | .panic, d => rw [show t v0 = Res.panic from d]; rfl
  | panic => rw [e] at hw; rw [walk_like_panic hc hw]; rfl
  | err _ => rw [e] at hw; exact hw.elim
  | loop => rw [e] at hw; exact hw.elim

/-- A document is loaded. -/
theorem load_out (hT : Holds s T) (S : Sound s L) (hc : canonT T = canonT T0) {i : Nat} {t : Val → Filled Unit} {y : Ptr → Out Unit}
    (hy : ∀ q X v F, 5 ≤ q → Good (Heap.clear s.heap q) (some q) (clearVal v) F → Mine X (Heap.clear s.heap q) F → Ends X (Heap.clear s.heap q) F q (t (canon v)) (y q))
    {f : Ptr → Out Unit → Res St} {k : Filled Unit → Res Trees} (hok : ∀ q a h, ∃ s', f q (.ok a h) = .ok s') (herr : ∀ q a h, ∃ s', f q (.err a h) = .ok s')
    (hp : ∀ q, f q .panic = .panic) (hl : ∀ q, f q .loop = .loop) (kp : k .panic = .panic) (kl : k .loop = .loop) :
    Fails ((s.walk i []).bind fun q => if s.loadable [] q then f q (y q) else .ok s) ((T0.walk i []).bind fun v => k (t (canon v))) := by
  have hw := hT.walk S i []
  cases e : s.walk i [] with
  | ok q =>
    show Fails (if s.loadable [] q then f q (y q) else .ok s) _
    split
    · rename_i hld
      obtain ⟨v, hv, H⟩ := hT.loads S e hld (hy q)
      obtain ⟨v0, h0, hc0⟩ := walk_like_ok hc hv
      rw [h0]
      show Fails _ (k (t (canon v0)))
      rw [← hc0]
      generalize t (canon v) = x at H
      generalize y q = y at H
      match x, y, H with
      | .ok _ _, .ok a h, _ => obtain ⟨s', e⟩ := hok q a h; rw [e]; trivial
      | .err _ _, .err a h, _ => obtain ⟨s', e⟩ := herr q a h; rw [e]; trivial
      | .panic, .panic, _ => rw [hp, kp]; rfl
      | .loop, .loop, _ => rw [hl, kl]; rfl
    · trivial
  | panic => rw [e] at hw; rw [walk_like_panic hc hw]; rfl
  | err _ => rw [e] at hw; exact hw.elim
  | loop => rw [e] at hw; exact hw.elim

/-- A sure statement in memory and on trees. -/
theorem PCmd.det (hT : Holds s T) (S : Sound s L) (E : Env) (c : PCmd) (hc : canonT T = canonT T0) (hs : c.sure E T0) :
    match c.exec E s with
    | .ok s' => ∃ T1 T2, Holds s' T1 ∧ c.onTree E T0 = .ok T2 ∧ canonT T1 = canonT T2
    | .panic => c.onTree E T0 = .panic
    | .loop => c.onTree E T0 = .loop
    | .err _ => False := by
  have ok : ∀ s', c.exec E s = .ok s' → ∃ T1 T2, Holds s' T1 ∧ c.onTree E T0 = .ok T2 ∧ canonT T1 = canonT T2 := by
    intro s' he
    obtain ⟨T1, hm, h1⟩ := hT.pexec S E c he
    obtain ⟨T2, h2, hc2⟩ := PCmd.means_like E c hc hs hm
    exact ⟨T1, T2, h1, h2, hc2⟩
  have bad : Fails (c.exec E s) (c.onTree E T0) := by
    cases c with
    | cmd c =>
      have hs : c.sure E T0 = true := hs
      have hsT : c.sure E T = true := by rw [← Cmd.sure_canon, hc, Cmd.sure_canon]; exact hs
      have hsP : c.plain.sure E T0 = true := by
        have := hs
        cases c <;> first | exact this | rfl
      have h := Cmd.refine hT S E c
      show Fails (c.exec E s) (c.plain.onTree E {} T0)
      generalize c.exec E s = r at h
      match r, h with
      | .ok _, _ => trivial
      | .panic, ⟨o, h⟩ =>
        have h : c.onTree E o T = .panic := h
        have h1 := Cmd.det E c o {} T hsT
        have h2 := Cmd.det E c.plain {} {} T0 hsP
        have hpp : c.plain.plain = c.plain := by cases c <;> rfl
        rw [hpp] at h2
        rw [hc, ← h2, h] at h1
        show c.plain.onTree E {} T0 = .panic
        cases e : c.plain.onTree E {} T0 <;> rw [e] at h1 <;> simp [canonTR] at h1 ⊢
    | newMsgPack i b cached pick =>
      have l := loads_bad (newValueFromMsgPackH_spec E S.world.inv b cached pick)
      exact (take_out (T0 := T0) (i := i) (y := newValueFromMsgPackH E s.heap b cached pick) (e := (PCmd.newMsgPack i b cached pick).exec E s) (fun a h e => ⟨_, by simp only [PCmd.exec, e]; rfl⟩) (fun a h e => ⟨_, by simp only [PCmd.exec, e]; rfl⟩)
        (fun e => ⟨by simp only [PCmd.exec, e]; rfl, l.1 e⟩) (fun e => ⟨by simp only [PCmd.exec, e]; rfl, l.2 e⟩) :)
    | newJson i b cached pick junk =>
      have l := loads_bad (newValueFromJsonH_spec E S.world.inv b cached pick)
      exact (take_out (T0 := T0) (i := i) (y := newValueFromJsonH E s.heap b cached pick) (e := (PCmd.newJson i b cached pick junk).exec E s) (fun a h e => ⟨_, by simp only [PCmd.exec, e]; rfl⟩) (fun a h e => ⟨_, by simp only [PCmd.exec, e]; rfl⟩)
        (fun e => ⟨by simp only [PCmd.exec, e]; rfl, l.1 e⟩) (fun e => ⟨by simp only [PCmd.exec, e]; rfl, l.2 e⟩) :)
    | newBson i hid b cached pick =>
      have l := loadsX_bad (newValueFromBsonH_spec E hid S.world.inv b cached pick)
      exact (take_out (T0 := T0) (i := i) (y := newValueFromBsonH E hid s.heap b cached pick) (e := (PCmd.newBson i hid b cached pick).exec E s) (fun a h e => ⟨_, by simp only [PCmd.exec, e]; rfl⟩) (fun a h e => ⟨_, by simp only [PCmd.exec, e]; rfl⟩)
        (fun e => ⟨by simp only [PCmd.exec, e]; rfl, l.1 e⟩) (fun e => ⟨by simp only [PCmd.exec, e]; rfl, l.2 e⟩) :)
    | loadMsgPack i π b =>
      obtain ⟨rfl, hs⟩ := hs
      exact load_out hT S hc (t := fun v => loadMsgPackT E v b) (y := fun q => loadMsgPackH E s.heap q b) (fun q X v F => msgPackT_ends E b X v F) (f := fun _ y => s.loaded y)
        (k := fun x => x.left.bind fun w => .ok (T0.put i (Val.subst (T0 i) [] w))) (fun _ _ _ => ⟨_, rfl⟩) (fun _ _ _ => ⟨_, rfl⟩) (fun _ => rfl) (fun _ => rfl) rfl rfl
    | loadJson i π b junk =>
      obtain ⟨rfl, hs⟩ := hs
      exact load_out hT S hc (t := fun v => loadJsonT E v b) (y := fun q => loadJsonH E s.heap q b) (fun q X v F => jsonT_ends E b X v F) (f := fun q y => s.loadedJson i q junk y)
        (k := fun x => T0.parsed i (x.value.bind fun w => .ok (Val.subst (T0 i) [] w))) (fun _ _ _ => ⟨_, rfl⟩) (fun _ _ _ => ⟨_, rfl⟩) (fun _ => rfl) (fun _ => rfl) rfl rfl
    | loadBson i π hid b =>
      obtain ⟨rfl, hs⟩ := hs
      exact load_out hT S hc (t := fun v => loadBsonT E hid v b) (y := fun q => loadBsonH E hid s.heap q b) (fun q X v F => bsonT_ends E hid b X v F) (f := fun _ y => s.loaded y)
        (k := fun x => x.left.bind fun w => .ok (T0.put i (Val.subst (T0 i) [] w))) (fun _ _ _ => ⟨_, rfl⟩) (fun _ _ _ => ⟨_, rfl⟩) (fun _ => rfl) (fun _ => rfl) rfl rfl
    | forcePath i π t path =>
      have hw := hT.walk S i π
      cases e : s.walk i π with
      | ok q =>
        rw [e] at hw
        obtain ⟨v, G, hv, g, -, -⟩ := hw
        obtain ⟨v0, h0, hc0⟩ := walk_like_ok hc hv
        obtain ⟨-, hf, -⟩ := hs v0 h0
        have hf' : Forceable E v path := by rw [← forceable_canon, hc0, forceable_canon]; exact hf
        have : ∃ s', (PCmd.forcePath i π t path).exec E s = .ok s' := by
          simp only [PCmd.exec, St.onNode, e, Res.bind_ok]
          split
          · exact ⟨_, rfl⟩
          · rename_i hsh
            obtain ⟨q', h2, w', F', G', e2, -⟩ := forceLoop_ok t path g (ge_of hsh) hf' none none []
            rw [show Heap.forcePath E s.heap q t path = .ok (q', h2) from e2]
            exact ⟨_, rfl⟩
        obtain ⟨s', e'⟩ := this
        rw [e']; trivial
      | panic =>
        rw [e] at hw
        have : (PCmd.forcePath i π t path).exec E s = .panic := by simp only [PCmd.exec, St.onNode, e, Res.bind_panic]
        rw [this]
        show (T0.walk i π).bind _ = _
        rw [walk_like_panic hc hw]; rfl
      | err _ => rw [e] at hw; exact hw.elim
      | loop => rw [e] at hw; exact hw.elim
    | newYaml i b cached pick p =>
      simp only [PCmd.exec, PCmd.onTree]
      split
      · trivial
      · rename_i hb
        have H := Yaml.newYaml_tree (E := E) (f := b.length + 1) (p := p) S.world.inv hb pick cached
        unfold St.newYaml
        generalize Yaml.newValueFromYaml E pick (b.length + 1) p.reset s.heap b cached = r at H
        generalize Yaml.newTree E (b.length + 1) b = r' at H
        match r, r', H with
        | .ok _, .ok _, _ => trivial
        | .err _, .err _, _ => trivial
        | .panic, .panic, _ => rfl
        | .loop, .loop, _ => rfl
    | loadYaml i π b pick p =>
      obtain ⟨rfl, hs⟩ := hs
      have hw := hT.walk S i []
      cases e : s.walk i [] with
      | ok q =>
        simp only [PCmd.exec, PCmd.onTree, e, Res.bind_ok]
        split
        · rename_i hl
          simp only [Bool.and_eq_true, Bool.not_eq_true', decide_eq_false_iff_not] at hl
          obtain ⟨h5, v, G, hv, gv, X, F, g, -⟩ := hT.cleared S e hl.1
          obtain ⟨v0, h0, hc0⟩ := walk_like_ok hc hv
          have H := Yaml.loadYaml_tree (E := E) (f := b.length + 1) (p := p) gv g h5 hl.2 pick
          have hsame : ∀ r : Res Val, (r = .panic ∨ r = .loop) → Yaml.loadTree E (b.length + 1) b v = r → (loadYamlVal E b v0).bind (fun w => .ok (T0.put i (Val.subst (T0 i) [] w))) = (r.bind fun _ => .ok T0) := by
            intro r hr hl
            have hne : b.dropWhile Yaml.isWB ≠ [] := by
              intro h
              unfold Yaml.loadTree at hl
              rw [if_pos h] at hl
              subst hl
              simp at hr
            have : loadYamlVal E b v = r := by
              unfold loadYamlVal
              rw [hl]
              rcases hr with rfl | rfl <;> rfl
            rw [loadYamlVal_same hne v0 v, this]
            rcases hr with rfl | rfl <;> rfl
          rw [h0]
          show Fails _ (if 42 ∈ b then _ else _)
          rw [if_neg hl.2]
          unfold St.loadYaml
          generalize Yaml.loadFromYaml E pick (b.length + 1) p.reset s.heap q b = r at H
          generalize hr' : Yaml.loadTree E (b.length + 1) b v = r' at H
          match r, r', H with
          | .ok _, .ok _, _ => trivial
          | .err _, .err _, _ => trivial
          | .panic, .panic, _ => exact hsame _ (Or.inl rfl) hr'
          | .loop, .loop, _ => exact hsame _ (Or.inr rfl) hr'
        · trivial
      | panic =>
        rw [e] at hw
        have : (PCmd.loadYaml i [] b pick p).exec E s = .panic := by simp only [PCmd.exec, e, Res.bind_panic]
        rw [this]
        show (T0.walk i []).bind _ = _
        rw [walk_like_panic hc hw]; rfl
      | err _ => rw [e] at hw; exact hw.elim
      | loop => rw [e] at hw; exact hw.elim
    | setValue i π g => exact node_out hT S hc fun q v v0 F h5 g' hv => Reflect.goVal_does g g' h5 hv
    | setKeyvalue i π k g own => exact node_out hT S hc fun q v v0 F h5 g' hv => Reflect.goKey_does g g' h5 hv k _ (cache_lt own g'.inv)
    | setIndexvalue i π n g own => exact node_out hT S hc fun q v v0 F h5 g' hv => Reflect.goIdx_does g g' h5 hv n _ (cache_lt own g'.inv)
    | newFrom i g cached pick =>
      obtain ⟨c, G, gx, h5⟩ := newFrom_blank S cached pick
      have d := Reflect.goVal_does (E := E) g gx h5 rfl
      have e : Reflect.goVal E (if cached then .int 0 c else .obj false []) g = Reflect.goVal E (.obj false []) g := by
        cases cached
        · rfl
        · exact Reflect.goVal_new hs c
      rw [e] at d
      simp only [PCmd.exec, PCmd.onTree, newValueFrom]
      generalize (if cached then newCacheValue s.heap .int pick else s.heap.new Node.zero) = r at d
      generalize Reflect.setValue E r.2 r.1 g = y at d
      match y, d with
      | .ok _, _ => trivial
      | .panic, d => rw [show _ = Res.panic from d]; rfl
    | merge => exact hs.elim
  cases e : c.exec E s with
  | ok s' => exact ok s' e
  | panic => rw [e] at bad; exact bad
  | loop => rw [e] at bad; exact bad
  | err x => rw [e] at bad; exact bad

/-- A sure program in memory and on trees. -/
theorem ptreeRun_det (E : Env) : ∀ (cs : List PCmd) {s : St} {L : Nat → Option Live} {T T0 : Trees}, Holds s T → Sound s L → canonT T = canonT T0 → psureAll E T0 cs →
    match pexecAll E s cs with
    | .ok s' => ∃ T1 T2, Holds s' T1 ∧ ptreeRun E T0 cs = .ok T2 ∧ canonT T1 = canonT T2
    | .panic => ptreeRun E T0 cs = .panic
    | .loop => ptreeRun E T0 cs = .loop
    | .err _ => False
  | [], s, L, T, T0, hT, _, hc, _ => ⟨T, T0, hT, rfl, hc⟩
  | c :: cs, s, L, T, T0, hT, S, hc, hs => by
    have h := PCmd.det hT S E c hc hs.1
    simp only [pexecAll, ptreeRun]
    cases e : c.exec E s with
    | ok s' =>
      rw [e] at h
      obtain ⟨T1, T2, h1, h2, h3⟩ := h
      obtain ⟨L', S', -⟩ := S.pexec E c e
      have ih := ptreeRun_det E cs h1 S' h3 (hs.2 T2 h2)
      rw [h2]
      exact ih
    | panic => rw [e] at h; rw [show c.onTree E T0 = .panic from h]; rfl
    | loop => rw [e] at h; rw [show c.onTree E T0 = .loop from h]; rfl
    | err _ => rw [e] at h; exact h.elim

/-- On trees the caches are not there. -/
theorem PCmd.onTree_plain (E : Env) (T : Trees) (c : PCmd) : c.plain.onTree E T = c.onTree E T := by
  cases c with
  | cmd c => cases c <;> rfl
  | _ => rfl

theorem ptreeRun_plain (E : Env) : ∀ (cs : List PCmd) (T : Trees), ptreeRun E T (cs.map PCmd.plain) = ptreeRun E T cs
  | [], _ => rfl
  | c :: cs, T => by
    simp only [List.map, ptreeRun, PCmd.onTree_plain]
    cases c.onTree E T with
    | ok T' => exact ptreeRun_plain E cs T'
    | _ => rfl

theorem PCmd.sure_plain (E : Env) (T : Trees) (c : PCmd) (h : c.sure E T) : c.plain.sure E T := by
  cases c with
  | cmd c =>
    have h : c.sure E T = true := h
    show c.plain.sure E T = true
    cases c <;> first | exact h | rfl
  | _ => exact h

end

end Dxs.Heap
