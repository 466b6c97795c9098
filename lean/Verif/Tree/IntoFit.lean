import Verif.Tree.IntoBson

/-!
# When loading gives what the document decodes to

Exactly when `LoadFromMsgPack` into a value gives what `NewValueFromMsgPack` gives for the same bytes; the same for JSON and BSON.
-/

namespace Dxs.Heap
open MsgPack

/-- The first name in an object that is built of names, and what happens to an array that gets these names. -/
def firstName (E : Env) : List (Bytes × Val) → Prop
  | [] => False
  | (k, _) :: _ => strIdx E k = -1

/-- The values `w` that a document is loaded into as it is, by what it decodes to. -/
def TakesM (E : Env) (w : Val) : Val → Prop
  | .nil | .raw _ => False
  | .str _ => ∃ s, w = .str s
  | .bin _ _ => ∃ s, w = .bin 0 s
  | .exbin _ _ => ∃ s, w = .exbin 0 s
  | .dateTime _ => ∃ x, w = .dateTime x
  | .arr xs => xs = [] → ∃ ys, w = .arr ys
  | .obj _ kvs => if kvs = [] then ∃ ku ms, w = .obj ku ms else (∃ ys, w = .arr ys) → firstName E kvs
  | .int _ _ => ∀ e x, w = .int e x → e = 0
  | .double _ => ∀ x, w ≠ .dateTime x
  | _ => True

theorem setKeyValueObj_head (E : Env) (k : Bytes) (x : Val) (kvs : List (Bytes × Val)) (name : Bytes) (v : Val) :
    ∃ x' kvs', setKeyValueObj E true ((k, x) :: kvs) name v = (true, (k, x') :: kvs') := by
  unfold setKeyValueObj
  have h2 : (indexByName E true ((k, x) :: kvs) name).2 = (true, (k, x) :: kvs) := by simp [indexByName, unescKeys]
  rcases hi : indexByName E true ((k, x) :: kvs) name with ⟨i, r⟩
  rw [hi] at h2
  dsimp only at h2
  subst h2
  cases i with
  | none => exact ⟨x, kvs ++ [(name, v)], rfl⟩
  | some i =>
    cases i with
    | zero => exact ⟨v, kvs, by simp⟩
    | succ i => exact ⟨x, kvs.modify i (fun kv => (kv.1, v)), by simp⟩

theorem setKeyValueObj_new (E : Env) (ku : Bool) (name : Bytes) (v : Val) : setKeyValueObj E ku [] name v = (true, [(name, v)]) := by
  unfold setKeyValueObj indexByName findKey unescKeys
  cases ku <;> simp

/-- The first name stays the first. -/
theorem parseMembers_head (E : Env) (p : Bytes → Res (Val × Bytes)) : ∀ n k y kvs b x t, parseMembers E p n true ((k, y) :: kvs) b = .ok (x, t) →
    ∃ y' kvs', x = .obj true ((k, y') :: kvs')
  | 0, k, y, kvs, b, x, t, h => by
    simp only [parseMembers, Res.ok.injEq, Prod.mk.injEq] at h
    exact ⟨_, _, h.1.symm⟩
  | n + 1, k, y, kvs, b, x, t, h => by
    simp only [parseMembers, Res.bind_eq_ok] at h
    obtain ⟨_, -, kb, -, vb, -, h⟩ := h
    obtain ⟨x', kvs', e⟩ := setKeyValueObj_head E k y kvs kb.1 vb.1
    rw [e] at h
    exact parseMembers_head E p n k x' kvs' _ _ _ h

/-- An object takes the members. -/
theorem membersT_obj (E : Env) (p : Bytes → Res (Val × Bytes)) : ∀ n ku kvs b x t, parseMembers E p n ku kvs b = .ok (x, t) → membersT E p n (.obj ku kvs) b = .ok t x
  | 0, ku, kvs, b, x, t, h => by
    simp only [parseMembers, Res.ok.injEq, Prod.mk.injEq] at h
    rw [membersT, h.1, h.2]
  | n + 1, ku, kvs, b, x, t, h => by
    simp only [parseMembers, Res.bind_eq_ok] at h
    obtain ⟨cb, h1, kb, h2, vb, h3, h⟩ := h
    rw [membersT, h1]
    simp only [Filled.lift, Filled.bind, h2, h3]
    exact membersT_obj E p n _ _ _ _ _ h

/-- An array that got an index: it is an array, or an object that does not begin with an index. -/
def Mixed (E : Env) (v : Val) : Prop := (∃ xs, v = .arr xs) ∨ ∃ k x kvs, v = .obj true ((k, x) :: kvs) ∧ strIdx E k = -1

theorem Mixed.put {E : Env} {v : Val} (m : Mixed E v) (k : Bytes) (x : Val) : Mixed E (putName E v k x) := by
  rcases m with ⟨xs, rfl⟩ | ⟨k0, y, kvs, rfl, h0⟩
  · unfold putName
    by_cases hk : asIndex E k (.arr xs) = true
    · rw [if_pos hk]
      unfold arrPut
      left
      split <;> exact ⟨_, rfl⟩
    · rw [if_neg hk]
      right
      unfold objPut
      simp only [objOf, setKeyValueObj_new]
      exact ⟨k, x, [], rfl, by simpa [asIndex] using hk⟩
  · right
    obtain ⟨y', kvs', e⟩ := setKeyValueObj_head E k0 y kvs k x
    refine ⟨k0, y', kvs', ?_, h0⟩
    unfold putName objPut
    simp only [asIndex, objOf, e]
    rfl

theorem Mixed.members {E : Env} (p : Bytes → Res (Val × Bytes)) : ∀ n v b ku kvs x t, Mixed E v → parseMembers E p n ku kvs b = .ok (x, t) →
    ∃ w, membersT E p n v b = .ok t w ∧ Mixed E w
  | 0, v, b, ku, kvs, x, t, m, h => by
    simp only [parseMembers, Res.ok.injEq, Prod.mk.injEq] at h
    exact ⟨v, by rw [membersT, h.2], m⟩
  | n + 1, v, b, ku, kvs, x, t, m, h => by
    simp only [parseMembers, Res.bind_eq_ok] at h
    obtain ⟨cb, h1, kb, h2, vb, h3, h⟩ := h
    rw [membersT, h1]
    simp only [Filled.lift, Filled.bind, h2, h3]
    exact Mixed.members p n _ _ _ _ _ _ (m.put _ _) h

theorem elemsT_arr (p : Bytes → Res (Val × Bytes)) : ∀ n ys b xs t, parseElems p n b = .ok (xs, t) → elemsT p n (.arr ys) b = .ok t (.arr (ys ++ xs))
  | 0, ys, b, xs, t, h => by
    simp only [parseElems, Res.ok.injEq, Prod.mk.injEq] at h
    rw [elemsT, ← h.1, ← h.2]; simp
  | n + 1, ys, b, xs, t, h => by
    simp only [parseElems, Res.bind_eq_ok, Res.ok.injEq, Prod.mk.injEq] at h
    obtain ⟨xb, h1, ⟨zs, t'⟩, h2, rfl, rfl⟩ := h
    rw [elemsT, h1]
    simp only [Filled.lift, Filled.bind, pushArr]
    rw [elemsT_arr p n _ _ _ _ h2]
    simp

theorem parseElems_length (p : Bytes → Res (Val × Bytes)) : ∀ n b xs t, parseElems p n b = .ok (xs, t) → xs.length = n
  | 0, b, xs, t, h => by
    simp only [parseElems, Res.ok.injEq, Prod.mk.injEq] at h
    rw [← h.1]; rfl
  | n + 1, b, xs, t, h => by
    simp only [parseElems, Res.bind_eq_ok, Res.ok.injEq, Prod.mk.injEq] at h
    obtain ⟨xb, h1, ⟨zs, t'⟩, h2, rfl, rfl⟩ := h
    simp [parseElems_length p n _ _ _ h2]

section
variable {E : Env} {fuel : Nat} {code : UInt8} {b t : Bytes} {v x : Val}

theorem array2T_fits (ho : parseArray (parseValue E fuel) code b = .ok (x, t)) (hc : clearVal v = v) :
    ∃ t' w, array2T E fuel code v b = .ok t' w ∧ (canon w = canon x ↔ TakesM E v x) := by
  unfold parseArray at ho
  simp only [Res.bind_eq_ok, Res.ok.injEq, Prod.mk.injEq] at ho
  obtain ⟨⟨n, b'⟩, h1, ⟨xs, t'⟩, h2, rfl, rfl⟩ := ho
  unfold array2T
  rw [h1]
  simp only [Filled.lift, Filled.bind]
  by_cases hn : n = 0
  · subst hn
    simp only [parseElems, Res.ok.injEq, Prod.mk.injEq] at h2
    obtain ⟨rfl, rfl⟩ := h2
    refine ⟨_, _, by rw [if_pos rfl], ?_⟩
    simp only [TakesM, true_implies]
    constructor
    · intro h
      cases v <;> simp [canon] at h
      exact ⟨_, rfl⟩
    · rintro ⟨ys, rfl⟩
      simp only [clearVal, Val.arr.injEq] at hc
      rw [← hc]
  · rw [if_neg hn]
    refine ⟨_, _, elemsT_arr _ n [] _ _ _ h2, ?_⟩
    have := parseElems_length _ _ _ _ _ h2
    have hx : xs ≠ [] := by rintro rfl; exact hn this.symm
    simp [TakesM, hx]

theorem object2T_fits (ho : parseObject E (parseValue E fuel) code b = .ok (x, t)) (hc : clearVal v = v) (hv : v ≠ .nil) :
    ∃ t' w, object2T E fuel code v b = .ok t' w ∧ (canon w = canon x ↔ TakesM E v x) := by
  unfold parseObject at ho
  simp only [Res.bind_eq_ok] at ho
  obtain ⟨⟨n, b'⟩, h1, ho⟩ := ho
  unfold object2T
  rw [h1]
  simp only [Filled.lift, Filled.bind]
  dsimp only at ho
  by_cases hn : n = 0
  · rw [if_pos hn] at ho ⊢
    simp only [Res.ok.injEq, Prod.mk.injEq] at ho
    obtain ⟨rfl, rfl⟩ := ho
    refine ⟨_, _, rfl, ?_⟩
    simp only [TakesM, if_true]
    constructor
    · intro h
      cases v <;> simp [canon] at h
      exact ⟨_, _, rfl⟩
    · rintro ⟨ku, ms, rfl⟩
      simp only [clearVal, Val.obj.injEq] at hc
      rw [← hc.1, ← hc.2]
  · rw [if_neg hn] at ho ⊢
    rcases b' with _ | ⟨k, b'⟩
    · cases ho
    dsimp only at ho ⊢
    by_cases hs : (!(isStr k)) = true
    · rw [if_pos hs] at ho; cases ho
    rw [if_neg hs] at ho ⊢
    obtain ⟨n, rfl⟩ : ∃ m, n = m + 1 := ⟨n - 1, by omega⟩
    have ho' := ho
    simp only [parseMembers, Res.bind_eq_ok] at ho'
    obtain ⟨cb, e1, kb, e2, vb, e3, ho'⟩ := ho'
    rw [setKeyValueObj_new] at ho'
    obtain ⟨y', kvs', rfl⟩ := parseMembers_head E _ _ _ _ _ _ _ _ ho'
    rw [membersT, e1]
    simp only [Filled.lift, Filled.bind, e2, e3, TakesM, firstName]
    rw [if_neg (by simp)]
    by_cases ha : ∃ ys, v = .arr ys
    · obtain ⟨ys, rfl⟩ := ha
      have hys : ys = [] := by simpa [clearVal] using hc.symm
      subst hys
      by_cases hi : strIdx E kb.1 = -1
      · refine ⟨t, _, ?_, iff_of_true rfl (fun _ => hi)⟩
        have : putName E (.arr []) kb.1 vb.1 = .obj true [(kb.1, vb.1)] := by
          simp [putName, asIndex, hi, objPut, objOf, setKeyValueObj_new]
        rw [this]
        exact membersT_obj E _ _ _ _ _ _ _ ho'
      · have m : Mixed E (putName E (.arr []) kb.1 vb.1) := Mixed.put (Or.inl ⟨_, rfl⟩) _ _
        obtain ⟨w, e, m'⟩ := Mixed.members _ n _ _ _ _ _ _ m ho'
        refine ⟨_, _, e, ⟨fun h => absurd h ?_, fun h => absurd (h ⟨_, rfl⟩) hi⟩⟩
        rcases m' with ⟨xs, rfl⟩ | ⟨k0, y, kvs, rfl, h0⟩
        · simp [canon]
        · intro h
          simp only [canon, canonM, Val.obj.injEq, List.cons.injEq, Prod.mk.injEq] at h
          rw [h.2.1.1] at h0
          exact hi h0
    · refine ⟨t, _, ?_, iff_of_true rfl (fun h => absurd h ha)⟩
      have : putName E v kb.1 vb.1 = .obj true [(kb.1, vb.1)] := by
        have h1 : asIndex E kb.1 v = false := by cases v <;> simp_all [asIndex]
        have h2 : (objOf v).2 = [] := by
          cases v <;> simp_all [objOf, clearVal]
        simp [putName, h1, objPut, h2, setKeyValueObj_new]
      rw [this]
      exact membersT_obj E _ _ _ _ _ _ _ ho'

/-- `parseMsgPack2Value` against `parseMsgPackValue`. -/
theorem parse2T_fits (ho : parseValue E (fuel + 1) b = .ok (x, t)) (hc : clearVal v = v) (hv : v ≠ .nil) :
    ∃ t' w, parse2T E fuel v b = .ok t' w ∧ (canon w = canon x ↔ TakesM E v x) := by
  rw [parseValue] at ho
  rw [Res.bind_eq_ok] at ho
  obtain ⟨⟨code, b'⟩, h0, ho⟩ := ho
  unfold parse2T
  rw [h0]
  simp only [Filled.lift, Filled.bind]
  dsimp only at ho
  have hint : ∀ y, canon (intInto y v) = canon (.int 0 y) ↔ TakesM E v (.int 0 y) := by
    intro y
    simp only [TakesM]
    constructor
    · rintro h e z rfl
      simpa [intInto, canon] using h
    · intro h
      cases v with
      | int e z => rw [h e z rfl]; rfl
      | _ => rfl
  have num : ∀ (r : Res (Nat × Bytes)) (f : Nat → BitVec 64), (r >>= fun ub => (.ok (.int 0 (f ub.1), ub.2) : Res (Val × Bytes))) = .ok (x, t) →
      ∃ t' w, (Filled.lift r v).bind (fun ub v => .ok ub.2 (intInto (f ub.1) v)) = .ok t' w ∧ (canon w = canon x ↔ TakesM E v x) := by
    intro r f h
    rw [Res.bind_eq_ok] at h
    obtain ⟨ub, rfl, h⟩ := h
    cases h
    exact ⟨_, _, rfl, hint _⟩
  by_cases c1 : isStr code = true
  · rw [if_pos c1] at ho ⊢
    rw [Res.bind_eq_ok] at ho
    obtain ⟨⟨s, b2⟩, e, ho⟩ := ho
    cases ho
    rw [e]
    refine ⟨_, _, rfl, ?_⟩
    simp only [TakesM]
    constructor
    · intro h
      cases v <;> simp [strInto, canon] at h
      exact ⟨_, rfl⟩
    · rintro ⟨s, rfl⟩; rfl
  rw [if_neg c1] at ho ⊢
  by_cases c2 : isArray code = true
  · rw [if_pos c2] at ho ⊢; exact array2T_fits ho hc
  rw [if_neg c2] at ho ⊢
  by_cases c3 : isMap code = true
  · rw [if_pos c3] at ho ⊢; exact object2T_fits ho hc hv
  rw [if_neg c3] at ho ⊢
  by_cases c4 : isFixedNum code = true
  · rw [if_pos c4] at ho ⊢; cases ho; exact ⟨_, _, rfl, hint _⟩
  rw [if_neg c4] at ho ⊢
  by_cases c5 : (code == 0xcc) = true
  · rw [if_pos c5] at ho ⊢; exact num _ _ ho
  rw [if_neg c5] at ho ⊢
  by_cases c6 : (code == 0xd0) = true
  · rw [if_pos c6] at ho ⊢; exact num _ _ ho
  rw [if_neg c6] at ho ⊢
  by_cases c7 : (code == 0xcd) = true
  · rw [if_pos c7] at ho ⊢; exact num _ _ ho
  rw [if_neg c7] at ho ⊢
  by_cases c8 : (code == 0xd1) = true
  · rw [if_pos c8] at ho ⊢; exact num _ _ ho
  rw [if_neg c8] at ho ⊢
  by_cases c9 : (code == 0xce) = true
  · rw [if_pos c9] at ho ⊢; exact num _ _ ho
  rw [if_neg c9] at ho ⊢
  by_cases c10 : (code == 0xd2) = true
  · rw [if_pos c10] at ho ⊢; exact num _ _ ho
  rw [if_neg c10] at ho ⊢
  by_cases c11 : (code == 0xd3 || code == 0xcf) = true
  · rw [if_pos c11] at ho ⊢; exact num _ _ ho
  rw [if_neg c11] at ho ⊢
  by_cases c12 : (code == 0xca) = true
  · rw [if_pos c12] at ho ⊢
    rw [Res.bind_eq_ok] at ho
    obtain ⟨ub, e, ho⟩ := ho
    cases ho
    rw [e]
    exact ⟨_, _, rfl, iff_of_true (by simp [canon, Val.ofF32]) trivial⟩
  rw [if_neg c12] at ho ⊢
  by_cases c13 : (code == 0xcb) = true
  · rw [if_pos c13] at ho ⊢
    rw [Res.bind_eq_ok] at ho
    obtain ⟨ub, e, ho⟩ := ho
    cases ho
    rw [e]
    refine ⟨_, _, rfl, ?_⟩
    simp only [TakesM]
    constructor
    · rintro h z rfl
      simp [dblInto, Val.vt, canon] at h
    · intro h
      cases v with
      | dateTime z => exact absurd rfl (h z)
      | _ => rfl
  rw [if_neg c13] at ho ⊢
  by_cases c14 : (code == 0xc3) = true
  · rw [if_pos c14] at ho ⊢; cases ho; exact ⟨_, _, rfl, iff_of_true rfl trivial⟩
  rw [if_neg c14] at ho ⊢
  by_cases c15 : (code == 0xc2) = true
  · rw [if_pos c15] at ho ⊢; cases ho; exact ⟨_, _, rfl, iff_of_true rfl trivial⟩
  rw [if_neg c15] at ho ⊢
  by_cases c16 : (code == 0xc0) = true
  · rw [if_pos c16] at ho ⊢; cases ho; exact ⟨_, _, rfl, iff_of_true rfl trivial⟩
  rw [if_neg c16] at ho ⊢
  by_cases c17 : isBin code = true
  · rw [if_pos c17] at ho ⊢
    unfold parseBin at ho
    unfold bin2T
    rw [Res.bind_eq_ok] at ho
    obtain ⟨nb, e, ho⟩ := ho
    rw [e]
    simp only [Filled.lift, Filled.bind]
    dsimp only at ho
    by_cases hl : nb.1 ≤ nb.2.length
    · rw [if_pos hl] at ho ⊢
      cases ho
      refine ⟨_, _, rfl, ?_⟩
      simp only [TakesM]
      constructor
      · intro h
        cases v <;> simp [binInto, canon] at h
        rw [h.1]; exact ⟨_, rfl⟩
      · rintro ⟨s, rfl⟩
        simp only [clearVal, Val.bin.injEq, true_and] at hc
        rw [← hc]; rfl
    · rw [if_neg hl] at ho; cases ho
  rw [if_neg c17] at ho ⊢
  by_cases c18 : isExt code = true
  · rw [if_pos c18] at ho ⊢
    unfold parseExt at ho
    unfold ext2T
    rw [Res.bind_eq_ok] at ho
    obtain ⟨⟨n, b2⟩, e, ho⟩ := ho
    rw [e]
    simp only [Filled.lift, Filled.bind]
    dsimp only at ho
    by_cases hl : b2.length < n
    · rw [if_pos hl] at ho; cases ho
    rw [if_neg hl] at ho ⊢
    rw [Res.bind_eq_ok] at ho
    obtain ⟨tail, e2, ho⟩ := ho
    rw [e2]
    rcases b2 with _ | ⟨ty, b2⟩
    · cases ho
    dsimp only at ho ⊢
    by_cases hT : isTime code ty = true
    · rw [if_pos hT] at ho ⊢
      rw [Res.bind_eq_ok] at ho
      obtain ⟨z, e3, ho⟩ := ho
      cases ho
      rw [e3]
      refine ⟨_, _, rfl, ?_⟩
      simp only [TakesM]
      constructor
      · intro h
        cases v <;> simp [dblInto, Val.vt, canon] at h
        exact ⟨_, rfl⟩
      · rintro ⟨y, rfl⟩; rfl
    · rw [if_neg hT] at ho ⊢
      cases ho
      refine ⟨_, _, rfl, ?_⟩
      simp only [TakesM]
      constructor
      · intro h
        cases v <;> simp [binInto, canon] at h
        rw [h.1]; exact ⟨_, rfl⟩
      · rintro ⟨s, rfl⟩
        simp only [clearVal, Val.exbin.injEq, true_and] at hc
        rw [← hc]; rfl
  rw [if_neg c18] at ho ⊢
  cases ho
  refine ⟨_, _, rfl, ?_⟩
  simp only [TakesM, iff_false]
  intro h
  exact hv (canon_nil.1 h)

theorem clearVal_idem (v : Val) : clearVal (clearVal v) = clearVal v := by cases v <;> rfl

theorem takesM_clear : TakesM E (clearVal v) x ↔ TakesM E v x := by
  cases x <;> cases v <;> simp [TakesM, clearVal]

/-- `LoadFromMsgPack` of bytes that `NewValueFromMsgPack` accepts: when it gives the same. -/
theorem loadMsgPackT_fits (ho : newValueFromMsgPack E b = .ok x) (hv : v ≠ .nil) :
    ∃ w, loadMsgPackT E v b = .ok () w ∧ (canon w = canon x ↔ TakesM E v x) := by
  unfold newValueFromMsgPack MsgPack.parse at ho
  rw [Res.bind_eq_ok] at ho
  obtain ⟨⟨x', t⟩, ho, e⟩ := ho
  cases e
  obtain ⟨t', w, e, hw⟩ := parse2T_fits (v := clearVal v) ho (clearVal_idem v) (by cases v <;> simp_all [clearVal])
  refine ⟨w, ?_, hw.trans takesM_clear⟩
  unfold loadMsgPackT
  have hb : ¬b.length = 0 := by
    intro hb
    rw [List.length_eq_zero_iff.1 hb, parseValue] at ho
    cases ho
  dsimp only
  rw [if_neg hb, e]
  rfl

end

/-! ## JSON -/

section
open Json (skipWB headIs isNumCh noNumber upTo foldIs parseKey parseString parseLit)

/-- The names and values are appended to an object, and nothing happens to another value. -/
theorem jobj2T_fits (E : Env) : ∀ (fuel : Nat) (b : Bytes) (kvs : List (Bytes × Val)) (x : Val) (t : Bytes), Json.objLoop E fuel b kvs = .ok (x, t) →
    (∃ kvs', x = .obj false kvs') ∧ jobj2T E fuel (.obj false kvs) b = .ok t x ∧ ∀ w, (∀ ku ms, w ≠ .obj ku ms) → jobj2T E fuel w b = .ok t w
  | 0, b, kvs, x, t, h => by rw [Json.objLoop] at h; cases h
  | fuel + 1, b, kvs, x, t, h => by
    have push : ∀ (k : Bytes) (y : Val) (w : Val), (∀ ku ms, w ≠ .obj ku ms) → pushKv k y w = w ∧ setKv k y w = w := by
      intro k y w hw
      cases w <;> first | exact ⟨rfl, rfl⟩ | exact absurd rfl (hw _ _)
    rw [Json.objLoop] at h
    simp only [Res.bind_eq_ok] at h
    obtain ⟨start, h1, h⟩ := h
    cases start with
    | false => cases h
    | true =>
      simp only [Bool.not_true, Bool.false_eq_true, if_false, Res.bind_eq_ok] at h
      obtain ⟨b1, h2, kb, h3, colon, h4, h⟩ := h
      cases colon with
      | false => cases h
      | true =>
        simp only [Bool.not_true, Bool.false_eq_true, if_false, Res.bind_eq_ok] at h
        obtain ⟨b2, h5, vb, h6, h⟩ := h
        by_cases hl : (skipWB vb.2).1.length = 0
        · rw [if_pos hl] at h; cases h
        simp only [if_neg hl, Res.bind_eq_ok] at h
        obtain ⟨c, h7, h⟩ := h
        have go : ∀ v, jobj2T E (fuel + 1) v b = (if c == 44 then (Filled.lift (MsgPack.sliceFrom 1 (skipWB vb.2).1) (setKv kb.1 vb.1 (setKv kb.1 .nil (pushKv [] .nil v)))).bind fun b v => jobj2T E fuel v b
          else if c == 125 then (Filled.lift (MsgPack.sliceFrom 1 (skipWB vb.2).1) (setKv kb.1 vb.1 (setKv kb.1 .nil (pushKv [] .nil v)))).bind fun b v => .ok b v
          else .err (.json .noValueSplit (skipWB vb.2).2 vb.2) (setKv kb.1 vb.1 (setKv kb.1 .nil (pushKv [] .nil v)))) := by
          intro v
          rw [jobj2T]
          simp only [h1, h2, h3, h4, h5, h6, h7, Filled.lift, Filled.bind, Bool.not_true, Bool.false_eq_true, if_false, if_neg hl]
        have e1 : setKv kb.1 vb.1 (setKv kb.1 .nil (pushKv [] .nil (.obj false kvs))) = .obj false (kvs ++ [(kb.1, vb.1)]) := by simp [setKv, pushKv]
        have e2 : ∀ w, (∀ ku ms, w ≠ .obj ku ms) → setKv kb.1 vb.1 (setKv kb.1 .nil (pushKv [] .nil w)) = w := by
          intro w hw
          rw [(push _ _ w hw).1, (push _ _ w hw).2, (push _ _ w hw).2]
        by_cases hc : (c == 44) = true
        · rw [if_pos hc] at h
          rw [Res.bind_eq_ok] at h
          obtain ⟨b3, h8, h⟩ := h
          obtain ⟨i1, i2, i3⟩ := jobj2T_fits E fuel _ _ _ _ h
          refine ⟨i1, ?_, fun w hw => ?_⟩
          · rw [go, if_pos hc, e1, h8]; exact i2
          · rw [go, if_pos hc, e2 w hw, h8]; exact i3 w hw
        · rw [if_neg hc] at h
          by_cases hd : (c == 125) = true
          · rw [if_pos hd, Res.bind_eq_ok] at h
            obtain ⟨b3, h8, h⟩ := h
            cases h
            refine ⟨⟨_, rfl⟩, ?_, fun w hw => ?_⟩
            · rw [go, if_neg hc, if_pos hd, e1, h8]; rfl
            · rw [go, if_neg hc, if_pos hd, e2 w hw, h8]; rfl
          · rw [if_neg hd] at h; cases h

/-- The same for the elements of an array. -/
theorem jarr2T_fits (E : Env) : ∀ (fuel : Nat) (b : Bytes) (xs : List Val) (x : Val) (t : Bytes), Json.arrLoop E fuel b xs = .ok (x, t) →
    (∃ xs', x = .arr xs') ∧ jarr2T E fuel (.arr xs) b = .ok t x ∧ ∀ w, (∀ ms, w ≠ .arr ms) → jarr2T E fuel w b = .ok t w
  | 0, b, kvs, x, t, h => by rw [Json.arrLoop] at h; cases h
  | fuel + 1, b, xs, x, t, h => by
    have push : ∀ (y : Val) (w : Val), (∀ ms, w ≠ .arr ms) → pushArr y w = w := by
      intro y w hw
      cases w <;> first | rfl | exact absurd rfl (hw _)
    rw [Json.arrLoop] at h
    simp only [Res.bind_eq_ok] at h
    obtain ⟨vb, h6, h⟩ := h
    by_cases hl : (skipWB vb.2).1.length = 0
    · rw [if_pos hl] at h; cases h
    simp only [if_neg hl, Res.bind_eq_ok] at h
    obtain ⟨c, h7, h⟩ := h
    have go : ∀ v, jarr2T E (fuel + 1) v b = (if c == 44 then (Filled.lift (MsgPack.sliceFrom 1 (skipWB vb.2).1) (pushArr vb.1 v)).bind fun b v => jarr2T E fuel v b
      else if c == 93 then (Filled.lift (MsgPack.sliceFrom 1 (skipWB vb.2).1) (pushArr vb.1 v)).bind fun b v => .ok b v
      else .err (.json .noValueSplit (skipWB vb.2).2 vb.2) (pushArr vb.1 v)) := by
      intro v
      rw [jarr2T]
      simp only [h6, h7, Filled.lift, Filled.bind, if_neg hl]
    by_cases hc : (c == 44) = true
    · rw [if_pos hc] at h
      rw [Res.bind_eq_ok] at h
      obtain ⟨b3, h8, h⟩ := h
      obtain ⟨i1, i2, i3⟩ := jarr2T_fits E fuel _ _ _ _ h
      refine ⟨i1, ?_, fun w hw => ?_⟩
      · rw [go, if_pos hc, h8]; exact i2
      · rw [go, if_pos hc, push _ w hw, h8]; exact i3 w hw
    · rw [if_neg hc] at h
      by_cases hd : (c == 93) = true
      · rw [if_pos hd, Res.bind_eq_ok] at h
        obtain ⟨b3, h8, h⟩ := h
        cases h
        refine ⟨⟨_, rfl⟩, ?_, fun w hw => ?_⟩
        · rw [go, if_neg hc, if_pos hd, h8]; rfl
        · rw [go, if_neg hc, if_pos hd, push _ w hw, h8]; rfl
      · rw [if_neg hd] at h; cases h

/-- What becomes of a number: one with a point and one at the end of the text are not the number that is decoded. -/
theorem jnum2T_fits (E : Env) (v : Val) (hv : v ≠ .nil) (b : Bytes) : ∀ (r : Bytes) (i : Nat) (fl : Bool) (x : Val) (t : Bytes), Json.numLoop E b i fl r = .ok (x, t) →
    ∃ t' w, jnum2T E v b i r = .ok t' w ∧ (canon w = canon x ↔ TakesJ v x)
  | [], i, fl, x, t, he => by
    simp only [Json.numLoop, Res.ok.injEq, Prod.mk.injEq] at he
    obtain ⟨rfl, rfl⟩ := he
    refine ⟨_, _, by rw [jnum2T], ?_⟩
    simp only [TakesJ, iff_false]
    exact fun h => hv (canon_nil.1 h)
  | ch :: r, i, fl, x, t, he => by
    rw [Json.numLoop] at he
    rw [jnum2T]
    by_cases hc : isNumCh ch = true
    · simp only [if_pos hc] at he ⊢
      exact jnum2T_fits E v hv b r (i + 1) _ x t he
    · simp only [if_neg hc, Res.bind_eq_ok] at he ⊢
      obtain ⟨word, hw, he⟩ := he
      simp only [hw, Filled.lift, Filled.bind]
      cases word with
      | true =>
        simp only [if_true, Res.bind_eq_ok] at he ⊢
        obtain ⟨y, hx, he⟩ := he
        simp only [hx]
        by_cases hl : y.length ≥ 3
        · simp only [if_pos hl, Res.bind_eq_ok] at he ⊢
          obtain ⟨xs, hxs, he⟩ := he
          simp only [hxs]
          by_cases f1 : foldIs xs [105, 110, 102] = true
          · simp only [if_pos f1, Res.bind_eq_ok, Res.ok.injEq, Prod.mk.injEq] at he ⊢
            obtain ⟨tl, htl, rfl, rfl⟩ := he
            simp only [htl]
            exact ⟨_, _, rfl, iff_of_true rfl trivial⟩
          · simp only [if_neg f1] at he ⊢
            by_cases f2 : foldIs xs [110, 97, 110] = true
            · simp only [if_pos f2, Res.bind_eq_ok, Res.ok.injEq, Prod.mk.injEq] at he ⊢
              obtain ⟨tl, htl, rfl, rfl⟩ := he
              simp only [htl]
              exact ⟨_, _, rfl, iff_of_true rfl trivial⟩
            · simp only [if_neg f2] at he; cases he
        · simp only [if_neg hl] at he; cases he
      | false =>
        simp only [Bool.false_eq_true, if_false, Res.bind_eq_ok] at he ⊢
        obtain ⟨ns, hns, tl, htl, he⟩ := he
        have h46 : (ch == 46) = false := by
          cases e : ch == 46 with
          | false => rfl
          | true => exact absurd (by simp [isNumCh, e]) hc
        simp only [hns, htl, h46, Bool.false_eq_true, if_false]
        refine ⟨_, _, rfl, ?_⟩
        have hs : ∃ e y, intInto ((E.strToInt ns).getD 0) v = .int e y := by cases v <;> exact ⟨_, _, rfl⟩
        by_cases hq : (if fl = true then fl else ch == 46) = true
        · rw [if_pos hq] at he
          cases he
          simp only [TakesJ, Val.ofF32, iff_false]
          obtain ⟨e, y, hs⟩ := hs
          rw [hs]
          simp [canon]
        · rw [if_neg hq] at he
          cases he
          simp only [TakesJ]
          constructor
          · rintro h e z rfl
            simpa [intInto, canon] using h
          · intro h
            cases v with
            | int e z => rw [h e z rfl]; rfl
            | _ => rfl

theorem parseLit_kind {E : Env} {b0 : UInt8} {b t : Bytes} {x : Val} (hb : (b0 == 116 || b0 == 102 || b0 == 110) = true) (h : parseLit E b0 b = .ok (x, t)) :
    x = .tru ∨ x = .fls ∨ x = .nan ∨ x = .null := by
  unfold parseLit at h
  by_cases c1 : (b0 == 116) = true
  · rw [if_pos c1] at h
    split at h
    · cases h
    · rw [Res.bind_eq_ok] at h
      obtain ⟨y, -, h⟩ := h
      split at h
      · cases h
      · rw [Res.bind_eq_ok] at h
        obtain ⟨y, -, h⟩ := h
        cases h; simp
  rw [if_neg c1] at h
  by_cases c2 : (b0 == 102) = true
  · rw [if_pos c2] at h
    split at h
    · cases h
    · rw [Res.bind_eq_ok] at h
      obtain ⟨y, -, h⟩ := h
      split at h
      · cases h
      · rw [Res.bind_eq_ok] at h
        obtain ⟨y, -, h⟩ := h
        cases h; simp
  rw [if_neg c2] at h
  by_cases c3 : (b0 == 110) = true
  · rw [if_pos c3, Res.bind_eq_ok] at h
    obtain ⟨y, -, h⟩ := h
    split at h
    · split at h
      · rw [Res.bind_eq_ok] at h
        obtain ⟨y, -, h⟩ := h
        split at h
        · rw [Res.bind_eq_ok] at h
          obtain ⟨y, -, h⟩ := h
          cases h; simp
        · cases h
      · cases h
    · rw [Res.bind_eq_ok] at h
      obtain ⟨y, -, h⟩ := h
      cases h; simp
  · simp_all

variable {E : Env} {fuel : Nat} {b t : Bytes} {v x : Val}

/-- `parseJson2Value` against `parseJsonValue`. -/
theorem json2T_fits (ho : Json.parseValue E (fuel + 2) b = .ok (x, t)) (hc : clearVal v = v) (hv : v ≠ .nil) :
    ∃ t' w, json2T E fuel v b = .ok t' w ∧ (canon w = canon x ↔ TakesJ v x) := by
  rw [Json.parseValue] at ho
  unfold json2T
  by_cases hb : b.length = 0
  · rw [if_pos hb] at ho; cases ho
  rw [if_neg hb] at ho ⊢
  rw [Res.bind_eq_ok] at ho
  obtain ⟨b0, h0, ho⟩ := ho
  rw [h0]
  simp only [Filled.lift, Filled.bind]
  dsimp only at ho
  by_cases c1 : (b0 == 123) = true
  · rw [if_pos c1, Res.bind_eq_ok] at ho
    rw [if_pos c1]
    obtain ⟨b1, h1, ho⟩ := ho
    rw [Json.parseObj] at ho
    simp only [h1]
    dsimp only at ho
    by_cases hl : (skipWB b1).1.length = 0
    · rw [if_pos hl] at ho; cases ho
    rw [if_neg hl] at ho ⊢
    rw [Res.bind_eq_ok] at ho
    obtain ⟨c, h2, ho⟩ := ho
    simp only [h2]
    have fin : ∀ kvs', (v.vt = .object → True) → (canon v = canon (.obj false kvs') → v.vt = .object) := by
      intro kvs' _ h
      cases v <;> simp [canon] at h
      rfl
    by_cases c2 : (c == 125) = true
    · rw [if_pos c2, Res.bind_eq_ok] at ho
      rw [if_pos c2]
      obtain ⟨b2, h3, ho⟩ := ho
      cases ho
      simp only [h3]
      refine ⟨_, _, rfl, ?_⟩
      simp only [TakesJ]
      refine ⟨fin [] (fun _ => trivial), fun h => ?_⟩
      obtain ⟨ku, kvs, rfl⟩ := vt_obj h hv
      simp only [clearVal, Val.obj.injEq] at hc
      rw [← hc.1, ← hc.2]
    · rw [if_neg c2] at ho ⊢
      obtain ⟨⟨kvs', rfl⟩, i2, i3⟩ := jobj2T_fits E _ _ _ _ _ ho
      by_cases hk : v.vt = .object
      · obtain ⟨ku, kvs, rfl⟩ := vt_obj hk hv
        simp only [clearVal, Val.obj.injEq] at hc
        rw [← hc.1, ← hc.2]
        exact ⟨_, _, i2, iff_of_true rfl rfl⟩
      · refine ⟨_, _, i3 v (by rintro ku ms rfl; exact hk rfl), ?_⟩
        simp only [TakesJ]
        exact ⟨fin kvs' (fun _ => trivial), fun h => absurd h hk⟩
  rw [if_neg c1] at ho ⊢
  by_cases c2 : (b0 == 91) = true
  · rw [if_pos c2, Res.bind_eq_ok] at ho
    rw [if_pos c2]
    obtain ⟨b1, h1, ho⟩ := ho
    rw [Json.parseArr] at ho
    simp only [h1]
    dsimp only at ho
    by_cases hl : (skipWB b1).1.length = 0
    · rw [if_pos hl] at ho; cases ho
    rw [if_neg hl] at ho ⊢
    rw [Res.bind_eq_ok] at ho
    obtain ⟨c, h2, ho⟩ := ho
    simp only [h2]
    have fin : ∀ xs', canon v = canon (.arr xs') → v.vt = .array := by
      intro kvs' h
      cases v <;> simp [canon] at h
      rfl
    by_cases c3 : (c == 93) = true
    · rw [if_pos c3, Res.bind_eq_ok] at ho
      rw [if_pos c3]
      obtain ⟨b2, h3, ho⟩ := ho
      cases ho
      simp only [h3]
      refine ⟨_, _, rfl, ?_⟩
      simp only [TakesJ]
      refine ⟨fin [], fun h => ?_⟩
      obtain ⟨xs, rfl⟩ := vt_arr h hv
      simp only [clearVal, Val.arr.injEq] at hc
      rw [← hc]
    · rw [if_neg c3] at ho ⊢
      obtain ⟨⟨xs', rfl⟩, i2, i3⟩ := jarr2T_fits E _ _ _ _ _ ho
      by_cases hk : v.vt = .array
      · obtain ⟨xs, rfl⟩ := vt_arr hk hv
        simp only [clearVal, Val.arr.injEq] at hc
        rw [← hc]
        exact ⟨_, _, i2, iff_of_true rfl rfl⟩
      · refine ⟨_, _, i3 v (by rintro ms rfl; exact hk rfl), ?_⟩
        simp only [TakesJ]
        exact ⟨fin xs', fun h => absurd h hk⟩
  rw [if_neg c2] at ho ⊢
  by_cases c3 : (b0 == 34) = true
  · rw [if_pos c3] at ho ⊢
    simp only [Res.bind_eq_ok] at ho
    obtain ⟨b1, h1, st, h2, ho⟩ := ho
    cases ho
    simp only [h1, h2]
    unfold Json.strVal
    cases hj : E.jsonTime st.1 with
    | none => exact ⟨_, _, rfl, iff_of_true rfl trivial⟩
    | some d => exact ⟨_, _, rfl, iff_of_true rfl trivial⟩
  rw [if_neg c3] at ho ⊢
  by_cases c4 : (b0 == 116 || b0 == 102 || b0 == 110) = true
  · rw [if_pos c4, ho]
    refine ⟨_, _, rfl, ?_⟩
    rcases parseLit_kind c4 ho with rfl | rfl | rfl | rfl <;> exact iff_of_true rfl trivial
  · rw [if_neg c4]
    simp only [Bool.or_eq_true, not_or] at c4
    unfold parseLit at ho
    rw [if_neg c4.1.1, if_neg c4.1.2, if_neg c4.2] at ho
    exact jnum2T_fits E v hv b b 0 false x t ho

theorem takesJ_clear : TakesJ (clearVal v) x ↔ TakesJ v x := by
  cases x <;> cases v <;> simp [TakesJ, clearVal, Val.vt]

/-- `LoadFromJson` of a text that `NewValueFromJson` accepts: when it gives the same. -/
theorem loadJsonT_fits (ho : Json.newValueFromJson E b = .ok x) (hv : v ≠ .nil) :
    ∃ w, loadJsonT E v b = .ok () w ∧ (canon w = canon x ↔ TakesJ v x) := by
  unfold Json.newValueFromJson at ho
  simp only [Res.bind_eq_ok] at ho
  obtain ⟨⟨x', t⟩, ho, e⟩ := ho
  split at e
  · cases e
  cases e
  obtain ⟨t', w, e, hw⟩ := json2T_fits (v := clearVal v) ho (clearVal_idem v) (by cases v <;> simp_all [clearVal])
  refine ⟨w, ?_, hw.trans takesJ_clear⟩
  unfold loadJsonT
  have hb : ¬(skipWB b).1.length = 0 := by
    intro hb
    rw [Json.parseValue, if_pos hb] at ho
    cases ho
  dsimp only
  rw [if_neg hb, e]
  rfl

end

/-! ## BSON -/

section
open Bson (at_ targetType)

/-- The first name stays the first. -/
theorem docLoop_head (E : Env) (hid : Bytes) : ∀ (fuel : Nat) (b : Bytes) (l i : Nat) (k : Bytes) (y : Val) (kvs : List (Bytes × Val)) (x : Val),
    Bson.docLoop E hid fuel b l i true ((k, y) :: kvs) = .ok x → ∃ y' kvs', x = .obj true ((k, y') :: kvs')
  | 0, b, l, i, k, y, kvs, x, h => by rw [Bson.docLoop] at h; cases h
  | fuel + 1, b, l, i, k, y, kvs, x, h => by
    rw [docLoop_step] at h
    by_cases hi : i < l
    · rw [if_pos hi, Res.bind_eq_ok] at h
      obtain ⟨ty, -, h⟩ := h
      cases hk : (b.drop (i + 1)).idxOf? 0 with
      | none => rw [hk] at h; cases h
      | some n =>
        simp only [hk, Res.bind_eq_ok] at h
        obtain ⟨r, -, h⟩ := h
        obtain ⟨y', kvs', e⟩ := setKeyValueObj_head E k y kvs ((b.drop (i + 1)).take n) r.2
        split at h
        · cases h
          unfold objPut
          rw [e]
          exact ⟨_, _, rfl⟩
        · rw [e] at h
          exact docLoop_head E hid fuel _ _ _ _ _ _ _ h
    · rw [if_neg hi] at h
      cases h
      exact ⟨_, _, rfl⟩

/-- A document without a member, or with a first one. -/
theorem docLoop_first {E : Env} {hid : Bytes} {fuel : Nat} {b : Bytes} {l i : Nat} {x : Val} (h : Bson.docLoop E hid (fuel + 1) b l i false [] = .ok x) :
    (¬ i < l ∧ x = .obj false []) ∨ (i < l ∧ ∃ ty n y kvs, at_ b i = .ok ty ∧ (b.drop (i + 1)).idxOf? 0 = some n ∧ x = .obj true (((b.drop (i + 1)).take n, y) :: kvs)) := by
  rw [docLoop_step] at h
  by_cases hi : i < l
  · rw [if_pos hi, Res.bind_eq_ok] at h
    obtain ⟨ty, h1, h⟩ := h
    cases hk : (b.drop (i + 1)).idxOf? 0 with
    | none => rw [hk] at h; cases h
    | some n =>
      simp only [hk, Res.bind_eq_ok] at h
      obtain ⟨r, -, h⟩ := h
      refine Or.inr ⟨hi, ty, n, ?_⟩
      split at h
      · cases h
        unfold objPut
        rw [setKeyValueObj_new]
        exact ⟨_, _, h1, rfl, rfl⟩
      · rw [setKeyValueObj_new] at h
        obtain ⟨y', kvs', e⟩ := docLoop_head E hid _ _ _ _ _ _ _ _ h
        exact ⟨_, _, h1, rfl, e⟩
  · rw [if_neg hi] at h
    cases h
    exact Or.inl ⟨hi, rfl⟩

theorem Mixed.docLoop {E : Env} {hid : Bytes} : ∀ (fuel : Nat) (v : Val) (b : Bytes) (l i : Nat) (w : Val), Mixed E v → docLoopT E hid fuel v b l i = .ok () w → Mixed E w
  | 0, v, b, l, i, w, m, h => by rw [docLoopT] at h; cases h
  | fuel + 1, v, b, l, i, w, m, h => by
    rw [docLoopT] at h
    by_cases hi : i < l
    · rw [if_pos hi] at h
      cases ha : at_ b i with
      | ok ty =>
        simp only [ha, Filled.lift, Filled.bind] at h
        cases hk : (b.drop (i + 1)).idxOf? 0 with
        | none => rw [hk] at h; cases h
        | some n =>
          simp only [hk] at h
          split at h
          · cases h
          · generalize elemT E hid fuel ty _ _ = r at h
            cases r with
            | ok a x =>
              simp only [Filled.inside] at h
              split at h
              · cases h; exact m.put _ _
              · exact Mixed.docLoop fuel _ _ _ _ _ (m.put _ _) h
            | err _ _ => cases h
            | panic => cases h
            | loop => cases h
      | err _ => rw [ha] at h; cases h
      | panic => rw [ha] at h; cases h
      | loop => rw [ha] at h; cases h
    · rw [if_neg hi] at h
      cases h
      exact m

/-- With a first name that is not taken for an index, an empty value of any type is filled like an empty object. -/
theorem docLoopT_fresh {E : Env} {hid : Bytes} (fuel : Nat) {v : Val} (hc : clearVal v = v) {b : Bytes} {l i n : Nat} (hi : i < l) (hk : (b.drop (i + 1)).idxOf? 0 = some n)
    (hn : (∃ ys, v = .arr ys) → strIdx E ((b.drop (i + 1)).take n) = -1) : ∀ u w, docLoopT E hid (fuel + 1) (.obj false []) b l i = .ok u w → docLoopT E hid (fuel + 1) v b l i = .ok u w := by
  intro u w h
  have hs : asIndex E ((b.drop (i + 1)).take n) v = false := by
    cases v <;> simp [asIndex]
    exact hn ⟨_, rfl⟩
  have ho : (objOf v).2 = [] := by
    cases v <;> simp_all [objOf, clearVal]
  have hob : (objOf v).1 = false := by
    cases v <;> simp_all [objOf, clearVal]
  have e1 : oldName E v ((b.drop (i + 1)).take n) = oldName E (.obj false []) ((b.drop (i + 1)).take n) := by
    unfold oldName
    rw [hs, ho, hob]; rfl
  have e2 : putName E v ((b.drop (i + 1)).take n) = putName E (.obj false []) ((b.drop (i + 1)).take n) := by
    funext y
    unfold putName
    rw [hs, ho, hob]; rfl
  rw [docLoopT, if_pos hi] at h ⊢
  cases ha : at_ b i with
  | ok ty =>
    simp only [ha, Filled.lift, Filled.bind, hk] at h ⊢
    rw [e1, e2, hs]
    exact h
  | err _ => rw [ha] at h; cases h
  | panic => rw [ha] at h; cases h
  | loop => rw [ha] at h; cases h

end
end Dxs.Heap
