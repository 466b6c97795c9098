import Verif.Yaml.PureRun

/-!
# `LoadFromYaml` and `NewValueFromYaml` on the same text
-/

namespace Dxs.Yaml

open Dxs.Heap

/-- Before the first line, or the same state. -/
def Ahead (m ml : PSt) : Prop :=
  m = ml ∨ (m = ⟨false, -1, none, none, []⟩ ∧ ∃ w, (w = .arr [] ∨ w = .obj false []) ∧ ml = ⟨false, -1, none, some w, [⟨false, -1, 0⟩]⟩)

section
variable {E : Env}

theorem arrLine_blank (E : Env) (l : Bytes) (sp : Int) (first : Bool) {w : Val} (hw : w = .arr [] ∨ w = .obj false []) : arrLine E l sp first w = arrLine E l sp first (.arr []) := by
  rcases hw with rfl | rfl
  · rfl
  · unfold arrLine
    rfl

theorem fill_root {w w' x : Val} {up : List PNode} {f f' f'' : Bool} {l : Int} : PSt.fill ⟨f, l, none, some w, [⟨false, -1, 0⟩]⟩ x up f'' = PSt.fill ⟨f', l, none, some w', [⟨false, -1, 0⟩]⟩ x up f'' := by
  unfold PSt.fill
  simp [pathOf, Val.subst]

/-- A line that is accepted by `NewValueFromYaml`. -/
theorem pline_ahead {line : Bytes} {sp : Nat} {m ml m' : PSt} (a : Ahead m ml) (e : pline E line sp m = .ok m') : ∃ ml', pline E line sp ml = .ok ml' ∧ Ahead m' ml' := by
  rcases a with rfl | ⟨rfl, w, hw, rfl⟩
  · exact ⟨m', e, Or.inl rfl⟩
  · unfold pline at e ⊢
    cases hc : (line.drop sp).head? with
    | none => rw [hc] at e; cases e
    | some c =>
      rw [hc] at e
      dsimp only at e ⊢
      split at e
      · rename_i hc
        rw [if_pos hc]
        cases e
        exact ⟨_, rfl, Or.inr ⟨rfl, w, hw, rfl⟩⟩
      · rename_i hc
        rw [if_neg hc]
        have h1 : ¬((-1 : Int) > (sp : Int)) := by omega
        have h2 : ¬((-1 : Int) = (sp : Int)) := by omega
        simp only [Bool.false_eq_true, false_and, if_false, h1, h2] at e ⊢
        split at e
        · rename_i h45
          rw [if_pos h45]
          obtain ⟨m1, e1, e⟩ := Res.bind_eq_ok.1 e
          cases e
          have goal : parrLine E ((cutComment (line.drop sp)).drop 1) sp ⟨false, -1, none, some w, [⟨false, -1, 0⟩]⟩ = .ok m1 := by
            unfold parrLine at e1 ⊢
            have h3 : ∀ l : Bytes, ¬(l ≠ [] ∧ l.head? ≠ some 32 ∧ (sp : Int) ≤ -1) := fun l h => by omega
            rw [if_neg (h3 _)] at e1 ⊢
            have ht : (PSt.start .array ⟨false, -1, none, none, []⟩).top = some (.arr []) := rfl
            have ht' : (PSt.start .array ⟨false, -1, none, some w, [⟨false, -1, 0⟩]⟩).top = some w := rfl
            rw [ht] at e1
            rw [ht']
            dsimp only at e1 ⊢
            rw [show (PSt.start .array ⟨false, -1, none, some w, [⟨false, -1, 0⟩]⟩).first = false from rfl, arrLine_blank E _ _ _ hw]
            obtain ⟨r, er, e1⟩ := Res.bind_eq_ok.1 e1
            rw [show (PSt.start .array ⟨false, -1, none, none, []⟩).first = false from rfl] at er
            rw [er]
            rw [← e1]
            exact congrArg Res.ok fill_root
          rw [goal]
          exact ⟨_, rfl, Or.inl rfl⟩
        · rename_i h45
          rw [if_neg h45]
          obtain ⟨m1, e1, e⟩ := Res.bind_eq_ok.1 e
          cases e
          have goal : pobjLine E (cutComment (line.drop sp)) sp ⟨false, -1, none, some w, [⟨false, -1, 0⟩]⟩ = .ok m1 := by
            unfold pobjLine at e1 ⊢
            have ht : (PSt.start .object ⟨false, -1, none, none, []⟩).top = some (.obj false []) := rfl
            have ht' : (PSt.start .object ⟨false, -1, none, some w, [⟨false, -1, 0⟩]⟩).top = some w := rfl
            rw [ht] at e1
            rw [ht']
            dsimp only at e1 ⊢
            obtain ⟨r, er, e1⟩ := Res.bind_eq_ok.1 e1
            have hl : (if ([] : List PNode).isEmpty = false ∧ (PSt.start .object ⟨false, -1, none, none, []⟩).first = true ∧ ((PSt.start .object ⟨false, -1, none, none, []⟩).stack.head?.map (·.isMap)) = some true
                then (PSt.start .object ⟨false, -1, none, none, []⟩).last + 2 else (PSt.start .object ⟨false, -1, none, none, []⟩).last) = -1 := rfl
            have hl' : (if ([⟨false, -1, 0⟩] : List PNode).isEmpty = false ∧ (PSt.start .object ⟨false, -1, none, some w, [⟨false, -1, 0⟩]⟩).first = true ∧ ((PSt.start .object ⟨false, -1, none, some w, [⟨false, -1, 0⟩]⟩).stack.head?.map (·.isMap)) = some true
                then (PSt.start .object ⟨false, -1, none, some w, [⟨false, -1, 0⟩]⟩).last + 2 else (PSt.start .object ⟨false, -1, none, some w, [⟨false, -1, 0⟩]⟩).last) = -1 := rfl
            rw [hl] at er
            rw [hl']
            have : objLine E (cutComment (line.drop sp)) sp (-1) ([⟨false, -1, 0⟩] : List PNode).isEmpty w = .ok r := by
              unfold objLine at er ⊢
              dsimp only at er ⊢
              split at er
              · cases er
              rename_i hk
              simp only [List.isEmpty_nil, true_and, not_or] at hk
              simp only [List.isEmpty_cons, Bool.false_eq_true, false_and, if_false]
              have h2' : ¬((-1 : Int) = (sp : Int)) := by omega
              have h4 : (sp : Int) > -1 := by omega
              simp only [if_neg h2', if_pos h4] at er ⊢
              unfold childLine at er ⊢
              rw [if_neg hk.1] at er ⊢
              rcases hw with rfl | rfl
              · exact er
              · exact er
            rw [this]
            rw [← e1]
            exact congrArg Res.ok fill_root
          rw [goal]
          exact ⟨_, rfl, Or.inl rfl⟩

theorem ploop_ahead {data : Bytes} : ∀ (f i : Nat) {m ml m' : PSt}, Ahead m ml → ploop E data f i m = .ok m' → ∃ ml', ploop E data f i ml = .ok ml' ∧ Ahead m' ml'
  | 0, _, _, _, _, _, e => by cases e
  | f + 1, i, m, ml, m', a, e => by
    unfold ploop at e ⊢
    dsimp only at e ⊢
    generalize (if ((data.drop i).takeWhile (· != 10)).length < (data.drop i).length then i + ((data.drop i).takeWhile (· != 10)).length else data.length) = stop at e ⊢
    split at e
    · rename_i hs
      rw [if_pos hs]
      split at e
      · rename_i h
        rw [if_pos h]
        cases e
        exact ⟨ml, rfl, a⟩
      · rename_i h
        rw [if_neg h]
        exact ploop_ahead f _ a e
    · rename_i hs
      rw [if_neg hs]
      obtain ⟨m1, e1, e⟩ := Res.bind_eq_ok.1 e
      obtain ⟨ml1, el1, a1⟩ := pline_ahead a e1
      rw [el1]
      show ∃ ml', (if data.length ≤ stop + 1 then Res.ok ml1 else ploop E data f (stop + 1) ml1) = .ok ml' ∧ _
      split at e
      · rename_i h
        rw [if_pos h]
        cases e
        exact ⟨ml1, rfl, a1⟩
      · rename_i h
        rw [if_neg h]
        exact ploop_ahead f _ a1 e

/-! ## Texts without indentation -/

theorem member_box {w : Val} {key : Bytes} {t : VT} {g : Val → Res Val} {r : Val × Nat} (e : member E w key t g = .ok r) : r.1.vt = .object ∨ r.1.vt = .array := by
  unfold member at e
  split at e
  · cases e
  · obtain ⟨x, -, e⟩ := Res.bind_eq_ok.1 e
    cases e
    dsimp only
    unfold putName
    split
    · exact Or.inr rfl
    · exact Or.inl rfl

/-- Between the lines of a text without indentation. -/
def Level (m : PSt) : Prop :=
  m.kept = none ∧ ((m.root = none ∧ m.stack = [] ∧ m.last = -1) ∨
    ∃ w, m.root = some w ∧ (w.vt = .object ∨ w.vt = .array) ∧ m.last = 0 ∧
      ((∃ n, n.isMap = false ∧ m.stack = [n, ⟨false, -1, 0⟩]) ∨ ∃ n n', n.isMap = true ∧ m.first = true ∧ m.stack = [n, n', ⟨false, -1, 0⟩]))

/-- The root is on top. -/
def Bottom (m : PSt) : Prop := m.kept = none ∧ (m.last = -1 ∨ m.last = 0) ∧ ((m.root = none ∧ m.stack = [] ∧ m.last = -1) ∨ ∃ w, m.root = some w ∧ (w.vt = .object ∨ w.vt = .array) ∧ m.stack = [⟨false, -1, 0⟩])

theorem Bottom.start {m : PSt} (h : Bottom m) (t : VT) (ht : t = .object ∨ t = .array) : ∃ w, (w.vt = .object ∨ w.vt = .array) ∧ m.start t = ⟨m.first, m.last, none, some w, [⟨false, -1, 0⟩]⟩ := by
  obtain ⟨h1, -, ⟨h2, h3, -⟩ | ⟨w, h2, hw, h3⟩⟩ := h
  · refine ⟨blankVal t 0, ?_, ?_⟩
    · rcases ht with rfl | rfl
      · exact Or.inl rfl
      · exact Or.inr rfl
    · unfold PSt.start; rw [if_pos h3, h1, h2]; rfl
  · refine ⟨w, hw, ?_⟩
    unfold PSt.start
    rw [if_neg (by rw [h3]; simp)]
    cases m
    simp_all

theorem parrLine_level {line : Bytes} {m m' : PSt} (h : Bottom m) (e : parrLine E line 0 m = .ok m') : Level { m' with last := 0 } := by
  unfold parrLine at e
  split at e
  · cases e
  obtain ⟨w, hw, hm⟩ := h.start .array (Or.inr rfl)
  rw [hm] at e
  have ht : (⟨m.first, m.last, none, some w, [⟨false, -1, 0⟩]⟩ : PSt).top = some w := rfl
  rw [ht] at e
  dsimp only at e
  obtain ⟨⟨w', up, f⟩, er, e⟩ := Res.bind_eq_ok.1 e
  cases e
  unfold arrLine at er
  dsimp only at er
  have ha : (if w.vt = .object then Val.arr [] else w).vt = .array := by
    split
    · rfl
    · exact hw.resolve_left ‹_›
  rw [if_pos ha] at er
  have fin : w'.vt = .array → ((∃ n, n.isMap = false ∧ up = [n]) ∨ ∃ n n', n.isMap = true ∧ f = true ∧ up = [n, n']) →
      Level { (PSt.fill ⟨m.first, m.last, none, some w, [⟨false, -1, 0⟩]⟩ w' up f) with last := 0 } := by
    intro h1 h2
    refine ⟨rfl, Or.inr ⟨w', rfl, Or.inr h1, rfl, ?_⟩⟩
    rcases h2 with ⟨n, hn, rfl⟩ | ⟨n, n', hn, rfl, rfl⟩
    · exact Or.inl ⟨n, hn, rfl⟩
    · exact Or.inr ⟨n, n', hn, rfl, rfl⟩
  split at er
  · cases er
    exact fin rfl (Or.inl ⟨_, rfl, rfl⟩)
  · split at er
    · obtain ⟨x, -, er⟩ := Res.bind_eq_ok.1 er
      cases er
      exact fin rfl (Or.inl ⟨_, rfl, rfl⟩)
    · split at er
      · cases er
      · split at er <;>
        · obtain ⟨x, -, er⟩ := Res.bind_eq_ok.1 er
          cases er
          exact fin rfl (Or.inr ⟨_, _, rfl, rfl, rfl⟩)

theorem pobjLine_level {line : Bytes} {m m' : PSt} (h : Bottom m) (e : pobjLine E line 0 m = .ok m') : Level { m' with last := 0 } := by
  unfold pobjLine at e
  have hl := h.2.1
  obtain ⟨w, hw, hm⟩ := h.start .object (Or.inl rfl)
  rw [hm] at e
  have ht : (⟨m.first, m.last, none, some w, [⟨false, -1, 0⟩]⟩ : PSt).top = some w := rfl
  rw [ht] at e
  dsimp only at e
  simp only [List.head?_cons, Option.map_some, Option.some.injEq, Bool.false_eq_true, and_false, if_false] at e
  obtain ⟨⟨w', up⟩, er, e⟩ := Res.bind_eq_ok.1 e
  cases e
  have fin : (w'.vt = .object ∨ w'.vt = .array) → (∃ n, n.isMap = false ∧ up = [n]) → Level { (PSt.fill ⟨m.first, m.last, none, some w, [⟨false, -1, 0⟩]⟩ w' up false) with last := 0 } := by
    rintro h1 ⟨n, hn, rfl⟩
    exact ⟨rfl, Or.inr ⟨w', rfl, h1, rfl, Or.inl ⟨n, hn, rfl⟩⟩⟩
  unfold objLine at er
  dsimp only at er
  split at er
  · cases er
  split at er
  · obtain ⟨r, e1, er⟩ := Res.bind_eq_ok.1 er
    cases er
    refine fin ?_ ⟨_, rfl, rfl⟩
    unfold sameLine at e1
    split at e1
    · cases e1
    split at e1
    · cases e1
    split at e1
    · exact member_box e1
    · exact member_box e1
  split at er
  · unfold childLine at er
    split at er
    · cases er
    split at er
    · cases er
    · obtain ⟨r, e1, er⟩ := Res.bind_eq_ok.1 er
      cases er
      refine fin ?_ ⟨_, rfl, rfl⟩
      unfold childMember at e1
      split at e1
      · exact member_box e1
      · split at e1
        · dsimp only at e1
          split at e1 <;> (try split at e1) <;> first | exact member_box e1 | (cases e1; done)
        · exact member_box e1
  · rename_i hn0 hn1
    exfalso
    rcases hl with hl | hl
    · exact hn1 (by rw [hl]; decide)
    · exact hn0 hl

theorem pline_level {line : Bytes} {m m' : PSt} (h : Level m) (e : pline E line 0 m = .ok m') : Level m' := by
  unfold pline at e
  simp only [List.drop_zero] at e
  cases hc : line.head? with
  | none => rw [hc] at e; cases e
  | some c =>
    rw [hc] at e
    dsimp only at e
    split at e
    · cases e; exact h
    have hb : Bottom { m with stack :=
        if (if m.first = true ∧ (m.stack.head?.map (·.isMap)) = some true then m.last + 2 else m.last) > ((0 : Nat) : Int) then pclose ((0 : Nat) : Int) (m.stack.drop 2)
        else if (if m.first = true ∧ (m.stack.head?.map (·.isMap)) = some true then m.last + 2 else m.last) = ((0 : Nat) : Int) then m.stack.drop 1 else m.stack } := by
      obtain ⟨h1, ⟨h2, h3, h4⟩ | ⟨w, h2, hw, h4, ⟨n, hn, h5⟩ | ⟨n, n', hn, hf, h5⟩⟩⟩ := h
      · refine ⟨h1, Or.inl h4, Or.inl ⟨h2, ?_, h4⟩⟩
        dsimp only
        rw [h3, h4]
        simp
      · refine ⟨h1, Or.inr h4, Or.inr ⟨w, h2, hw, ?_⟩⟩
        dsimp only
        rw [h5, h4]
        simp [hn]
      · refine ⟨h1, Or.inr h4, Or.inr ⟨w, h2, hw, ?_⟩⟩
        dsimp only
        rw [h5, h4, hf]
        simp [hn, pclose]
    generalize ({ m with stack :=
        if (if m.first = true ∧ (m.stack.head?.map (·.isMap)) = some true then m.last + 2 else m.last) > ((0 : Nat) : Int) then pclose ((0 : Nat) : Int) (m.stack.drop 2)
        else if (if m.first = true ∧ (m.stack.head?.map (·.isMap)) = some true then m.last + 2 else m.last) = ((0 : Nat) : Int) then m.stack.drop 1 else m.stack } : PSt) = m1 at e hb
    split at e
    · obtain ⟨m2, e2, e⟩ := Res.bind_eq_ok.1 e
      cases e
      exact parrLine_level hb e2
    · obtain ⟨m2, e2, e⟩ := Res.bind_eq_ok.1 e
      cases e
      exact pobjLine_level hb e2

/-- No line of a text is indented. -/
def NoIndent (b : Bytes) : Prop := ∀ i, (i = 0 ∨ b[i - 1]? = some 10) → b[i]? ≠ some 32

theorem ploop_level {data : Bytes} (hd : NoIndent data) : ∀ (f i : Nat) {m m' : PSt}, (i = 0 ∨ data[i - 1]? = some 10 ∨ data.length ≤ i) → Level m → ploop E data f i m = .ok m' → Level m'
  | 0, _, _, _, _, _, e => by cases e
  | f + 1, i, m, m', hi, a, e => by
    unfold ploop at e
    dsimp only at e
    have hnext : ∀ stop, stop = (if ((data.drop i).takeWhile (· != 10)).length < (data.drop i).length then i + ((data.drop i).takeWhile (· != 10)).length else data.length) →
        stop + 1 = 0 ∨ data[stop + 1 - 1]? = some 10 ∨ data.length ≤ stop + 1 := by
      rintro stop rfl
      right
      split
      · rename_i hl
        left
        have h1 : (data.drop i)[((data.drop i).takeWhile (· != 10)).length]? = some 10 := by
          generalize data.drop i = l at hl
          induction l with
          | nil => simp at hl
          | cons c l ih =>
            by_cases hc : c = 10
            · simp [hc]
            · simp only [List.takeWhile_cons, bne_iff_ne, ne_eq, hc, not_false_eq_true, if_true, List.length_cons] at hl ⊢
              simpa using ih (by omega)
        rw [List.getElem?_drop] at h1
        simpa using h1
      · right; omega
    have hsp : (((data.drop i).takeWhile (· != 10)).takeWhile (· == 32)).length = 0 := by
      have h0 : data[i]? ≠ some 32 := by
        rcases hi with hi | hi | hi
        · exact hd i (Or.inl hi)
        · exact hd i (Or.inr hi)
        · rw [List.getElem?_eq_none (by omega)]; simp
      have e0 : (data.drop i).head? = data[i]? := by rw [List.head?_drop]
      cases hdr : data.drop i with
      | nil => rfl
      | cons c l =>
        rw [hdr] at e0
        simp only [List.head?_cons] at e0
        have hc : c ≠ 32 := by rintro rfl; exact h0 e0.symm
        simp only [List.takeWhile_cons]
        split
        · simp [hc]
        · rfl
    rw [hsp] at e
    generalize hst : (if ((data.drop i).takeWhile (· != 10)).length < (data.drop i).length then i + ((data.drop i).takeWhile (· != 10)).length else data.length) = stop at e
    have hnext := hnext stop hst.symm
    split at e
    · split at e
      · cases e; exact a
      · exact ploop_level hd f _ hnext a e
    · obtain ⟨m1, e1, e⟩ := Res.bind_eq_ok.1 e
      have a1 := pline_level a e1
      split at e
      · cases e; exact a1
      · exact ploop_level hd f _ hnext a1 e

/-- `LoadFromYaml` gives what `NewValueFromYaml` gives, unless that has begun a second root. -/
theorem load_new {b : Bytes} {f : Nat} {v : Val} (hb : ∀ c, b.head? = some c → isWB c = false) (e : newTree E f b = .ok (some v)) (v0 : Val) :
    ∃ m, pparse E f b ⟨false, -1, none, none, []⟩ = .ok m ∧ m.root = some v ∧ loadTree E f b v0 = .ok (m.kept.getD v) := by
  unfold newTree at e
  obtain ⟨m, em, e⟩ := Res.bind_eq_ok.1 e
  have hr : m.root = some v := by injection e
  refine ⟨m, em, hr, ?_⟩
  have hne : b ≠ [] := by
    rintro rfl
    unfold pparse at em
    rw [if_pos rfl] at em
    cases em
    cases hr
  have hd : b.dropWhile isWB = b := by
    cases b with
    | nil => rfl
    | cons c l => simp [hb c rfl]
  unfold loadTree
  rw [hd, if_neg hne]
  unfold pparse at em ⊢
  rw [if_neg hne] at em ⊢
  obtain ⟨ml, el, a⟩ := ploop_ahead f 0 (ml := loadFrom b) (m := ⟨false, -1, none, none, []⟩) (Or.inr ⟨rfl, _, by split <;> simp, rfl⟩) em
  rw [show ({ loadFrom b with last := -1 } : PSt) = loadFrom b from rfl, el]
  rcases a with rfl | ⟨rfl, -⟩
  · show Res.ok ((m.kept.or m.root).getD .nil) = _
    rw [hr]
    cases m.kept <;> rfl
  · cases hr

/-- The same for a text without indentation. -/
theorem load_new_level {b : Bytes} {f : Nat} {v : Val} (hd : NoIndent b) (hb : ∀ c, b.head? = some c → isWB c = false) (e : newTree E f b = .ok (some v)) (v0 : Val) :
    loadTree E f b v0 = .ok v := by
  obtain ⟨m, em, hr, el⟩ := load_new hb e v0
  have hk : m.kept = none := by
    unfold pparse at em
    split at em
    · cases em; rfl
    · exact (ploop_level hd f 0 (Or.inl rfl) ⟨rfl, Or.inl ⟨rfl, rfl, rfl⟩⟩ em).1
  rw [el, hk]
  rfl

end

end Dxs.Yaml
