import Verif.Heap.Equal
import Verif.Props.Clone

/-!
# C38: Equal; C71: values with the same content are Equal; C72: a clone is Equal
-/

namespace Dxs.Heap

/-! ## The specification -/

/-- Wherever `v` and `w` both have an array, that of `w` is at least as long. -/
def ArraysFit (v w : Val) : Prop := ∀ π xs ys, Val.sub v π = some (.arr xs) → Val.sub w π = some (.arr ys) → xs.length ≤ ys.length

/-- Wherever `v` has an array, `w` has one of the same length. -/
def SameLengths (v w : Val) : Prop := ∀ π xs, Val.sub v π = some (.arr xs) → ∃ ys, Val.sub w π = some (.arr ys) ∧ xs.length = ys.length

/-- Two values without a common node. -/
def Separate (h : Heap) (p q : Ptr) : Prop := ∀ r, Reach h.mem p r → Reach h.mem q r → r < 5

theorem Good.apart {h : Heap} {p q : Ptr} {v w : Val} {F G : List Ptr} (g : Good h (some p) v F) (g' : Good h (some q) w G) (ha : Separate h p q) :
    (F ++ G).Nodup ∧ ∀ r ∈ F ++ G, ¬Avail h r := by
  refine ⟨List.nodup_append.2 ⟨g.nodup, g'.nodup, ?_⟩, ?_⟩
  · rintro r h1 _ h2 rfl
    have := ha r (rep_reach g.rep (fun r e => by cases e; exact .here) r h1) (rep_reach g'.rep (fun r e => by cases e; exact .here) r h2)
    have := rep_ge g.rep r h1
    omega
  · intro r hr
    rcases List.mem_append.1 hr with h | h
    · exact g.live r h
    · exact g'.live r h

theorem Good.equal_ok {E : Env} {h : Heap} {p q : Ptr} {v w : Val} {F G : List Ptr} (g : Good h (some p) v F) (g' : Good h (some q) w G) (ha : Separate h p q)
    (f : Nat) : EqualOk E f h (some p) (some q) v w F G (equal E f h (some p) (some q)) :=
  equal_spec E f h _ _ v w F G g.inv g.rep g'.rep (g.apart g' ha).1 (g.apart g' ha).2

theorem Good.equal_val {E : Env} {h : Heap} {p q : Ptr} {v w : Val} {F G : List Ptr} (g : Good h (some p) v F) (g' : Good h (some q) w G) (ha : Separate h p q)
    {f : Nat} {x : Bool} {h' : Heap} (e : equal E f h (some p) (some q) = .ok (x, h')) : eqVal E v w = .ok x := by
  have := g.equal_ok (E := E) g' ha f
  rw [e] at this
  exact this.1

theorem Separate.symm {h : Heap} {p q : Ptr} (ha : Separate h p q) : Separate h q p := fun r h1 h2 => ha r h2 h1

/-! ## Facts on the comparison of trees -/

theorem eqNum_symm {E : Env} (hn : ∀ a b, E.f64eq a b = E.f64eq b a) (v w : Val) : eqNum E v w = eqNum E w v := by
  unfold eqNum
  cases dblOf E v <;> cases dblOf E w <;> simp [hn]

mutual
theorem eqVal_symm {E : Env} (hs : ∀ a b, E.equalFold a b = E.equalFold b a) (hn : ∀ a b, E.f64eq a b = E.f64eq b a) :
    ∀ (v w : Val) {x y : Bool}, eqVal E v w = .ok x → eqVal E w v = .ok y → x = y
  | .obj ku kvs, w, x, y, h1, h2 => by
    cases w with
    | obj ku' kvs' =>
      simp only [eqVal] at h1 h2
      by_cases hl : kvs.length = kvs'.length
      · simp only [hl, ne_eq, not_true_eq_false, if_false] at h1 h2
        exact eqValM_symm hs hn ku ku' kvs kvs' h1 h2
      · have hl' : ¬kvs'.length = kvs.length := fun h => hl h.symm
        simp only [hl, hl', ne_eq, not_false_eq_true, if_true] at h1 h2
        cases h1; cases h2; rfl
    | _ => simp [eqVal, eqNum, dblOf] at h1 h2; subst h1 h2; rfl
  | .arr xs, w, x, y, h1, h2 => by
    cases w with
    | arr ys =>
      simp only [eqVal] at h1 h2
      exact eqValL_symm hs hn xs ys h1 h2
    | _ => simp [eqVal, eqNum, dblOf] at h1 h2; subst h1 h2; rfl
  | .nil, w, x, y, h1, h2 | .null, w, x, y, h1, h2 | .tru, w, x, y, h1, h2 | .fls, w, x, y, h1, h2 | .nan, w, x, y, h1, h2 | .inf, w, x, y, h1, h2 => by
    cases w <;> simp [eqVal, eqNum, dblOf] at h1 h2 <;> subst h1 h2 <;> rfl
  | .str a, w, x, y, h1, h2 | .raw a, w, x, y, h1, h2 | .bin _ a, w, x, y, h1, h2 | .exbin _ a, w, x, y, h1, h2 | .dateTime a, w, x, y, h1, h2 => by
    cases w <;> simp [eqVal, eqNum, dblOf] at h1 h2 <;> subst h1 h2 <;> first | rfl | exact hs _ _ | (rw [Bool.eq_iff_iff]; simp; exact ⟨Eq.symm, Eq.symm⟩)
  | .int _ a, w, x, y, h1, h2 | .float a, w, x, y, h1, h2 | .double a, w, x, y, h1, h2 => by
    cases w <;> simp [eqVal, eqNum, dblOf] at h1 h2 <;> subst h1 h2 <;> first | rfl | exact hn _ _ | (rw [Bool.eq_iff_iff]; simp; exact ⟨Eq.symm, Eq.symm⟩)
theorem eqValM_symm {E : Env} (hs : ∀ a b, E.equalFold a b = E.equalFold b a) (hn : ∀ a b, E.f64eq a b = E.f64eq b a) (ku ku' : Bool) :
    ∀ (xs ys : List (Bytes × Val)) {x y : Bool}, eqValM E ku ku' xs ys = .ok x → eqValM E ku' ku ys xs = .ok y → x = y
  | [], ys, x, y, h1, h2 => by
    cases ys <;> simp [eqValM] at h1 h2 <;> subst h1 h2 <;> rfl
  | (k, v) :: xs, [], x, y, h1, h2 => by
    simp [eqValM] at h1 h2; subst h1 h2; rfl
  | (k, v) :: xs, (k', w) :: ys, x, y, h1, h2 => by
    simp only [eqValM] at h1 h2
    by_cases hk : keyOf E ku k = keyOf E ku' k'
    case neg =>
      have hk' : ¬keyOf E ku' k' = keyOf E ku k := fun h => hk h.symm
      simp only [hk, hk', ne_eq, not_false_eq_true, if_true] at h1 h2
      cases h1; cases h2; rfl
    simp only [hk, ne_eq, not_true_eq_false, if_false] at h1 h2
    have ih := @eqVal_symm E hs hn v w
    generalize eqVal E v w = r1 at h1 ih
    generalize eqVal E w v = r2 at h2 ih
    match r1, r2 with
    | .err _, _ | .panic, _ | .loop, _ => cases h1
    | .ok true, .err _ | .ok true, .panic | .ok true, .loop | .ok false, .err _ | .ok false, .panic | .ok false, .loop => cases h2
    | .ok true, .ok true => exact eqValM_symm hs hn ku ku' xs ys h1 h2
    | .ok false, .ok false => cases h1; cases h2; rfl
    | .ok true, .ok false | .ok false, .ok true => cases ih rfl rfl
theorem eqValL_symm {E : Env} (hs : ∀ a b, E.equalFold a b = E.equalFold b a) (hn : ∀ a b, E.f64eq a b = E.f64eq b a) :
    ∀ (xs ys : List Val) {x y : Bool}, eqValL E xs ys = .ok x → eqValL E ys xs = .ok y → x = y
  | [], [], x, y, h1, h2 => by simp [eqValL] at h1 h2; subst h1 h2; rfl
  | [], _ :: _, x, y, h1, h2 => by simp [eqValL] at h2
  | _ :: _, [], x, y, h1, h2 => by simp [eqValL] at h1
  | v :: xs, w :: ys, x, y, h1, h2 => by
    simp only [eqValL] at h1 h2
    have ih := @eqVal_symm E hs hn v w
    generalize eqVal E v w = r1 at h1 ih
    generalize eqVal E w v = r2 at h2 ih
    match r1, r2 with
    | .err _, _ | .panic, _ | .loop, _ => cases h1
    | .ok true, .err _ | .ok true, .panic | .ok true, .loop | .ok false, .err _ | .ok false, .panic | .ok false, .loop => cases h2
    | .ok true, .ok true => exact eqValL_symm hs hn xs ys h1 h2
    | .ok false, .ok false => cases h1; cases h2; rfl
    | .ok true, .ok false | .ok false, .ok true => cases ih rfl rfl
end

/-- The elements of equal lists. -/
theorem eqValL_get {E : Env} : ∀ {xs ys : List Val}, eqValL E xs ys = .ok true → xs.length ≤ ys.length ∧ ∀ (i : Nat) x, xs[i]? = some x → ∃ y, ys[i]? = some y ∧ eqVal E x y = .ok true
  | [], ys, _ => by simp
  | _ :: _, [], h => by simp [eqValL] at h
  | v :: xs, w :: ys, h => by
    simp only [eqValL] at h
    cases e : eqVal E v w with
    | ok b =>
      cases b with
      | false => rw [e] at h; cases h
      | true =>
        rw [e] at h
        obtain ⟨h1, h2⟩ := eqValL_get h
        refine ⟨by simpa using h1, fun i x hx => ?_⟩
        cases i with
        | zero => simp only [List.getElem?_cons_zero, Option.some.injEq] at hx ⊢; subst hx; exact ⟨w, rfl, e⟩
        | succ i => simp only [List.getElem?_cons_succ] at hx ⊢; exact h2 i x hx
    | err _ | panic | loop => rw [e] at h; cases h

/-- The members of equal objects. -/
theorem eqValM_get {E : Env} {ku ku' : Bool} : ∀ {xs ys : List (Bytes × Val)}, eqValM E ku ku' xs ys = .ok true → xs.length = ys.length →
    ∀ (i : Nat) x, (xs.map Prod.snd)[i]? = some x → ∃ y, (ys.map Prod.snd)[i]? = some y ∧ eqVal E x y = .ok true
  | [], ys, _, _ => by simp
  | _ :: _, [], h, hl => by simp at hl
  | (k, v) :: xs, (k', w) :: ys, h, hl => by
    simp only [eqValM] at h
    split at h
    · cases h
    cases e : eqVal E v w with
    | ok b =>
      cases b with
      | false => rw [e] at h; cases h
      | true =>
        rw [e] at h
        have h2 := eqValM_get h (by simpa using hl)
        intro i x hx
        cases i with
        | zero => simp only [List.map_cons, List.getElem?_cons_zero, Option.some.injEq] at hx ⊢; subst hx; exact ⟨w, rfl, e⟩
        | succ i => simp only [List.map_cons, List.getElem?_cons_succ] at hx ⊢; exact h2 i x hx
    | err _ | panic | loop => rw [e] at h; cases h

/-- What two equal values have in common. -/
theorem eqVal_kids {E : Env} {v w : Val} (h : eqVal E v w = .ok true) (i : Nat) (x : Val) (hx : (Val.kids v)[i]? = some x) :
    ∃ y, (Val.kids w)[i]? = some y ∧ eqVal E x y = .ok true := by
  cases v <;> try (simp [Val.kids] at hx; done)
  · cases w <;> simp [eqVal] at h
    split at h
    case isFalse => cases h
    exact eqValM_get h (by assumption) i x hx
  · cases w <;> simp [eqVal] at h
    exact (eqValL_get h).2 i x hx

theorem eqVal_sub {E : Env} : ∀ (π : List Nat) {v w : Val} (_ : eqVal E v w = .ok true) (x : Val), Val.sub v π = some x → ∃ y, Val.sub w π = some y ∧ eqVal E x y = .ok true
  | [], v, w, h, x, hx => by simp only [Val.sub, Option.some.injEq] at hx ⊢; subst hx; exact ⟨w, rfl, h⟩
  | i :: π, v, w, h, x, hx => by
    simp only [Val.sub] at hx ⊢
    cases e : (Val.kids v)[i]? with
    | none => rw [e] at hx; cases hx
    | some z =>
      rw [e] at hx
      obtain ⟨y, hy, h'⟩ := eqVal_kids h i z e
      rw [hy]
      exact eqVal_sub π h' x hx

mutual
theorem eqVal_total {E : Env} : ∀ (v w : Val), (∀ π xs ys, Val.sub v π = some (.arr xs) → Val.sub w π = some (.arr ys) → xs.length ≤ ys.length) → ∃ x, eqVal E v w = .ok x
  | .obj ku kvs, w, hf => by
    cases w with
    | obj ku' kvs' =>
      simp only [eqVal]
      split
      · exact ⟨_, rfl⟩
      · exact eqValM_total ku ku' kvs kvs' (fun i x y hx hy π xs ys h1 h2 => hf (i :: π) xs ys (by simp only [Val.sub, Val.kids, hx]; exact h1) (by simp only [Val.sub, Val.kids, hy]; exact h2))
    | _ => simp [eqVal]
  | .arr xs, w, hf => by
    cases w with
    | arr ys =>
      simp only [eqVal]
      exact eqValL_total xs ys (hf [] xs ys rfl rfl) (fun i x y hx hy π xs ys h1 h2 => hf (i :: π) xs ys (by simp only [Val.sub, Val.kids, hx]; exact h1) (by simp only [Val.sub, Val.kids, hy]; exact h2))
    | _ => simp [eqVal]
  | .nil, w, _ | .null, w, _ | .tru, w, _ | .fls, w, _ | .nan, w, _ | .inf, w, _ | .bin _ _, w, _ | .exbin _ _, w, _ | .dateTime _, w, _ => by simp [eqVal]
  | .str _, w, _ | .raw _, w, _ => by
    cases w <;> simp [eqVal]
  | .int _ _, w, _ | .float _, w, _ | .double _, w, _ => by
    cases w <;> simp [eqVal, eqNum, dblOf]
theorem eqValM_total {E : Env} (ku ku' : Bool) : ∀ (xs ys : List (Bytes × Val)),
    (∀ (i : Nat) x y, (xs.map Prod.snd)[i]? = some x → (ys.map Prod.snd)[i]? = some y → ∀ π xs ys, Val.sub x π = some (.arr xs) → Val.sub y π = some (.arr ys) → xs.length ≤ ys.length) →
    ∃ x, eqValM E ku ku' xs ys = .ok x
  | [], ys, _ => by simp [eqValM]
  | _ :: _, [], _ => by simp [eqValM]
  | (k, v) :: xs, (k', w) :: ys, hf => by
    simp only [eqValM]
    split
    · exact ⟨_, rfl⟩
    obtain ⟨x, e⟩ := eqVal_total (E := E) v w (hf 0 v w rfl rfl)
    rw [e]
    cases x with
    | false => exact ⟨_, rfl⟩
    | true => exact eqValM_total ku ku' xs ys (fun i x y hx hy => hf (i + 1) x y (by simpa using hx) (by simpa using hy))
theorem eqValL_total {E : Env} : ∀ (xs ys : List Val), xs.length ≤ ys.length →
    (∀ (i : Nat) x y, xs[i]? = some x → ys[i]? = some y → ∀ π xs ys, Val.sub x π = some (.arr xs) → Val.sub y π = some (.arr ys) → xs.length ≤ ys.length) →
    ∃ x, eqValL E xs ys = .ok x
  | [], ys, _, _ => by simp [eqValL]
  | _ :: _, [], hl, _ => by simp at hl
  | v :: xs, w :: ys, hl, hf => by
    simp only [eqValL]
    obtain ⟨x, e⟩ := eqVal_total (E := E) v w (hf 0 v w rfl rfl)
    rw [e]
    cases x with
    | false => exact ⟨_, rfl⟩
    | true => exact eqValL_total xs ys (by simpa using hl) (fun i x y hx hy => hf (i + 1) x y (by simpa using hx) (by simpa using hy))
end

/-! ## C38 -/

/-- `v.Equal(v)` is true for every value `v`, whatever it contains. -/
theorem C38_refl_partial (E : Env) (h : Heap) (p : Ptr) (v : Val) (F : List Ptr) (g : Good h (some p) v F) (f : Nat) (hf : height v ≤ f) :
    ∃ h', equal E f h (some p) (some p) = .ok (true, h') := by
  obtain ⟨h', e, -⟩ := equal_self E f h (some p) v F g.inv g.rep g.nodup g.live hf
  exact ⟨h', e⟩

/-- If both `v.Equal(w)` and `w.Equal(v)` return, the answers are the same. Missing: one of them may panic. -/
theorem C38_symm_partial (E : Env) (hs : ∀ a b, E.equalFold a b = E.equalFold b a) (hn : ∀ a b, E.f64eq a b = E.f64eq b a)
    (h : Heap) (p q : Ptr) (v w : Val) (F G : List Ptr) (g : Good h (some p) v F) (g' : Good h (some q) w G) (ha : Separate h p q)
    (f f' : Nat) (x y : Bool) (h1 h2 : Heap) (e1 : equal E f h (some p) (some q) = .ok (x, h1)) (e2 : equal E f' h (some q) (some p) = .ok (y, h2)) : x = y :=
  eqVal_symm hs hn v w (g.equal_val g' ha e1) (g'.equal_val g ha.symm e2)

/-- No panic, if no array of `v` is longer than the array at the same place of `w`. -/
theorem C38_total_partial (E : Env) (h : Heap) (p q : Ptr) (v w : Val) (F G : List Ptr) (g : Good h (some p) v F) (g' : Good h (some q) w G) (ha : Separate h p q)
    (hfit : ArraysFit v w) (f : Nat) (hf : height v ≤ f) : ∃ x h', equal E f h (some p) (some q) = .ok (x, h') := by
  have ok := g.equal_ok (E := E) g' ha f
  obtain ⟨x, e⟩ := eqVal_total (E := E) v w hfit
  generalize equal E f h (some p) (some q) = res at ok
  match res with
  | .err _ => exact ok.elim
  | .panic => simp only [EqualOk, e] at ok; cases ok
  | .loop => simp only [EqualOk] at ok; omega
  | .ok (x, h') => exact ⟨x, h', rfl⟩

/-- If both directions answer true, all arrays have the same lengths. -/
theorem C38_lengths_partial (E : Env) (h : Heap) (p q : Ptr) (v w : Val) (F G : List Ptr) (g : Good h (some p) v F) (g' : Good h (some q) w G) (ha : Separate h p q)
    (f f' : Nat) (h1 h2 : Heap) (e1 : equal E f h (some p) (some q) = .ok (true, h1)) (e2 : equal E f' h (some q) (some p) = .ok (true, h2)) : SameLengths v w := by
  have a1 := g.equal_val g' ha e1
  have a2 := g'.equal_val g ha.symm e2
  intro π xs hx
  obtain ⟨y, hy, e⟩ := eqVal_sub π a1 _ hx
  obtain ⟨x, hx', e'⟩ := eqVal_sub π a2 _ hy
  rw [hx] at hx'
  cases hx'
  obtain ⟨ys, rfl⟩ : ∃ ys, y = .arr ys := by cases y <;> simp [eqVal] at e; exact ⟨_, rfl⟩
  simp only [eqVal] at e e'
  exact ⟨ys, hy, Nat.le_antisymm (eqValL_get e).1 (eqValL_get e').1⟩

/-- Comparing changes neither value, except that strings and names are unescaped in place. -/
theorem C38_keeps_partial (E : Env) (h : Heap) (p q : Ptr) (v w : Val) (F G : List Ptr) (g : Good h (some p) v F) (g' : Good h (some q) w G) (ha : Separate h p q)
    (f : Nat) (x : Bool) (h' : Heap) (e : equal E f h (some p) (some q) = .ok (x, h')) :
    ∃ v' w', Rep h'.mem v' (some p) F ∧ Rep h'.mem w' (some q) G ∧ Softer E v v' ∧ Softer E w w' := by
  have ok := g.equal_ok (E := E) g' ha f
  rw [e] at ok
  obtain ⟨-, -, r1, r2⟩ := ok
  exact ⟨_, _, r1, r2, (compared_softer E v w).1, (compared_softer E v w).2⟩

/-- `[]` and `[1]`: the shorter array is Equal to the longer one, the other way round `Equal` panics. -/
theorem C38_length_counterexample :
    let r := newArray (Heap.init id) false none
    let s := newArray r.2 false none
    let h := setIndexInt s.2 s.1 0 1
    (equal envEx 9 h (some r.1) (some s.1)).bind (fun x => .ok (x.1, (h.mem r.1).arr.length, (h.mem s.1).arr.length)) = .ok (true, 0, 1) := by decide
theorem C38_panic_counterexample :
    let r := newArray (Heap.init id) false none
    let s := newArray r.2 false none
    let h := setIndexInt s.2 s.1 0 1
    (equal envEx 9 h (some s.1) (some r.1)).bind (fun x => .ok x.1) = .panic := by decide

/-- The heap after `v = NewValue(VT_String); v.SetString(a)` and a second value holding the unparsed JSON string `b`, as the
JSON parser leaves it (jsonparse.go:206-218). -/
def twoStrings (a b : Bytes) : Heap :=
  let r := newValue (Heap.init id) .string
  let h := setString r.2 r.1 a
  let s := newValue h .rawString
  s.2.upd s.1 (fun n => { n with str := b })

/-- The same question asked twice gets different answers: `"a"` and the unparsed `A` are Equal (case is ignored), but after
that the second one is an ordinary string and they are not. -/
theorem C38_repeat_counterexample :
    (equal envEx 9 (twoStrings [97] [65]) (some 5) (some 6)).bind (fun x => (equal envEx 9 x.2 (some 5) (some 6)).bind (fun y => .ok (x.1, y.1))) = .ok (true, false) := by decide

/-- Two trees the theorems apply to: `{"a": [1, 2], "b": "x"}` twice, once with an unparsed string. -/
example : ArraysFit (.obj true [([97], .arr [.int 0 1, .int 0 2]), ([98], .str [120])]) (.obj true [([97], .arr [.int 0 1, .int 0 2]), ([98], .raw [120])]) := by
  have hl : ∀ (v : Val), Val.isLeaf v = true → ∀ π xs, Val.sub v π ≠ some (.arr xs) := by
    intro v hv π xs
    cases π with
    | nil => cases v <;> simp [Val.isLeaf] at hv <;> simp [Val.sub]
    | cons i π => cases v <;> simp [Val.isLeaf] at hv <;> simp [Val.sub, Val.kids]
  intro π xs ys h1 h2
  match π with
  | [] => simp [Val.sub] at h1
  | [0] => simp [Val.sub, Val.kids] at h1 h2; subst h1 h2; simp
  | 0 :: 0 :: π => exact (hl (.int 0 1) rfl π xs (by simpa [Val.sub, Val.kids] using h1)).elim
  | 0 :: 1 :: π => exact (hl (.int 0 2) rfl π xs (by simpa [Val.sub, Val.kids] using h1)).elim
  | 0 :: (i + 2) :: π => simp [Val.sub, Val.kids] at h1
  | 1 :: π => exact (hl (.str [120]) rfl π xs (by simpa [Val.sub, Val.kids] using h1)).elim
  | (i + 2) :: π => simp [Val.sub, Val.kids] at h1

/-! ## C71 -/

/-- Two values representing the same tree are Equal. Missing: the same content represented differently, see the
counterexamples. -/
theorem C71_same_partial (E : Env) (h : Heap) (p q : Ptr) (v : Val) (F G : List Ptr) (g : Good h (some p) v F) (g' : Good h (some q) v G) (ha : Separate h p q)
    (f : Nat) (hf : height v ≤ f) : ∃ h', equal E f h (some p) (some q) = .ok (true, h') := by
  have ok := g.equal_ok (E := E) g' ha f
  have e := eqVal_same E v
  generalize equal E f h (some p) (some q) = res at ok
  match res with
  | .err _ => exact ok.elim
  | .panic => simp only [EqualOk, e] at ok; cases ok
  | .loop => simp only [EqualOk] at ok; omega
  | .ok (x, h') => obtain ⟨a, -⟩ := ok; rw [e] at a; cases a; exact ⟨h', rfl⟩

/-- Two JSON strings with the same content, `/` and `\/`, are not Equal. -/
theorem C71_escape_counterexample :
    let r := newValue (Heap.init id) .rawString
    let s := newValue (r.2.upd r.1 (fun n => { n with str := [47] })) .rawString
    let h := s.2.upd s.1 (fun n => { n with str := [92, 47] })
    (equal envEx 9 h (some r.1) (some s.1)).bind (fun x => .ok (x.1, envEx.unesc [47] == envEx.unesc [92, 47])) = .ok (false, true) := by decide

/-- Two floats with the same value are not Equal if one of them was an integer before: `v.SetInt(-1); v.SetFloat(1)`
leaves four bytes of the integer behind. -/
theorem C71_float_counterexample :
    let r := newValue (Heap.init id) .int
    let h := setFloat (setInt r.2 r.1 (-1)) r.1 0x3f800000
    let s := newValue h .float
    let h := setFloat s.2 s.1 0x3f800000
    (equal envEx 9 h (some r.1) (some s.1)).bind (fun x => .ok (x.1, getFloat envEx (h.mem r.1) == getFloat envEx (h.mem s.1))) = .ok (false, true) := by decide

/-! ## C72 -/

/-- A value is Equal to its clone. Missing: as in C37. -/
theorem C72_clone_partial (E : Env) (h : Heap) (p : Ptr) (v : Val) (F : List Ptr) (g : Good h (some p) v F) (hv : Ordinary v) (ho : Owns h p)
    (cached : Bool) (pick : Option Nat) (f : Nat) (hf : height v ≤ f) :
    ∃ r h1 h2, cloneTop f h p cached pick = .ok (r, h1) ∧ equal E f h1 (some p) (some r) = .ok (true, h2) := by
  obtain ⟨e1, e2⟩ := hv.same
  obtain ⟨r, h', F', e, g', gp, hd, hk⟩ := cloneTop_ok g ho cached pick f hf e2
  rw [e1] at g'
  have ha : Separate h' p r := fun q h1 h2 => by
    rcases gp.reach h1 with h | h
    · exact h
    · rcases g'.reach h2 with h' | h'
      · exact h'
      · exact absurd h (hd q h')
  obtain ⟨h2, e2⟩ := C71_same_partial E h' p r v F F' gp g' ha f hf
  exact ⟨r, h', h2, e, e2⟩

/-- A binary is not Equal to its clone. -/
theorem C72_binary_counterexample :
    let r := newValue (Heap.init id) .binary
    let h := setBinary r.2 r.1 [1, 2]
    (cloneTop 9 h r.1 false none).bind (fun s => (equal envEx 9 s.2 (some r.1) (some s.1)).bind (fun x => .ok x.1)) = .ok false := by decide

end Dxs.Heap
