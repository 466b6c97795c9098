import Verif.Heap.Prog
import Verif.Heap.MergeDeep

/-!
# MergeWith in programs
-/

namespace Dxs.Heap

/-! ## Reading a value from the memory -/

/-- The members, with what is read for them. -/
def readM (rec : Option Ptr → Option Val) : List (Bytes × Option Ptr) → Option (List (Bytes × Val))
  | [] => some []
  | (k, a) :: r => (rec a).bind fun v => (readM rec r).map fun vs => (k, v) :: vs

/-- The elements. -/
def readL (rec : Option Ptr → Option Val) : List (Option Ptr) → Option (List Val)
  | [] => some []
  | a :: r => (rec a).bind fun v => (readL rec r).map fun vs => v :: vs

/-- The tree a pointer represents, if it is not too high. -/
def valOf : Nat → (Ptr → Node) → Option Ptr → Option Val
  | 0, _, _ => none
  | _ + 1, _, none => some .nil
  | f + 1, m, some p =>
    match (m p).dt with
    | .object => (readM (valOf f m) (m p).kvs).map (.obj (m p).ku)
    | .array => (readL (valOf f m) (m p).arr).map .arr
    | _ => leafOf (view m p)

theorem readM_rep {m : Ptr → Node} {rec : Option Ptr → Option Val} (hrec : ∀ {v w a F}, Rep m v a F → rec a = some w → w = v) :
    ∀ {kvs : List (Bytes × Val)} {ps : List (Bytes × Option Ptr)} {F : List Ptr} {ws : List (Bytes × Val)}, RepM m kvs ps F → readM rec ps = some ws → ws = kvs
  | [], _, _, _, h, e => by obtain ⟨rfl, -⟩ := h; cases e; rfl
  | (k, x) :: xs, _, _, _, h, e => by
    obtain ⟨q, qs, F1, F2, rfl, rfl, h1, h2⟩ := h
    simp only [readM, Option.bind_eq_some_iff, Option.map_eq_some_iff] at e
    obtain ⟨v, e1, vs, e2, rfl⟩ := e
    rw [hrec h1 e1, readM_rep hrec h2 e2]

theorem readL_rep {m : Ptr → Node} {rec : Option Ptr → Option Val} (hrec : ∀ {v w a F}, Rep m v a F → rec a = some w → w = v) :
    ∀ {xs : List Val} {ps : List (Option Ptr)} {F : List Ptr} {ws : List Val}, RepL m xs ps F → readL rec ps = some ws → ws = xs
  | [], _, _, _, h, e => by obtain ⟨rfl, -⟩ := h; cases e; rfl
  | x :: xs, _, _, _, h, e => by
    obtain ⟨q, qs, F1, F2, rfl, rfl, h1, h2⟩ := h
    simp only [readL, Option.bind_eq_some_iff, Option.map_eq_some_iff] at e
    obtain ⟨v, e1, vs, e2, rfl⟩ := e
    rw [hrec h1 e1, readL_rep hrec h2 e2]

theorem valOf_rep {m : Ptr → Node} : ∀ {f : Nat} {v w : Val} {a : Option Ptr} {F : List Ptr}, Rep m v a F → valOf f m a = some w → w = v
  | 0, _, _, _, _, _, e => by cases e
  | f + 1, v, w, none, F, h, e => by
    obtain ⟨rfl, -⟩ := rep_none h
    cases e; rfl
  | f + 1, v, w, some p, F, h, e => by
    rcases rep_cases h with ⟨-, h', -⟩ | _ | _
    · cases h'
    all_goals
      have hd := rep_dt h
      cases v with
      | nil => obtain ⟨h', -⟩ := h; cases h'
      | obj ku kvs =>
        obtain ⟨p', F0, he, -, -, hdt, hk, hm⟩ := h
        cases he
        simp only [valOf, hdt, Option.map_eq_some_iff] at e
        obtain ⟨ws, e1, rfl⟩ := e
        rw [readM_rep (fun h1 h2 => valOf_rep h1 h2) hm e1, hk]
      | arr xs =>
        obtain ⟨p', F0, he, -, -, hdt, hm⟩ := h
        cases he
        simp only [valOf, hdt, Option.map_eq_some_iff] at e
        obtain ⟨ws, e1, rfl⟩ := e
        rw [readL_rep (fun h1 h2 => valOf_rep h1 h2) hm e1]
      | _ =>
        obtain ⟨p', he, -, hl⟩ := h
        cases he
        simp only [valOf, hd, Val.vt, hl] at e
        cases e; rfl

/-- No node that is not an object holds members. -/
def tidy : Nat → (Ptr → Node) → Option Ptr → Bool
  | 0, _, _ => false
  | _ + 1, _, none => true
  | f + 1, m, some p => p < 5 || (((m p).dt = .object || (m p).kvs.isEmpty) && (Node.kids (m p)).all (tidy f m))

theorem tidy_list {f : Nat} {m : Ptr → Node} (ih : ∀ {v a F}, Rep m v a F → tidy f m a = true → ∀ q ∈ F, (m q).dt ≠ .object → (m q).kvs = []) :
    ∀ {xs : List Val} {ps : List (Option Ptr)} {F : List Ptr}, RepL m xs ps F → ps.all (tidy f m) = true → ∀ q ∈ F, (m q).dt ≠ .object → (m q).kvs = []
  | [], _, _, h, _, q, hq => by obtain ⟨-, rfl⟩ := h; simp at hq
  | x :: xs, _, _, h, hc, q, hq => by
    obtain ⟨_, _, F1, F2, rfl, rfl, h1, h2⟩ := h
    simp only [List.all_cons, Bool.and_eq_true] at hc
    rcases List.mem_append.1 hq with hq | hq
    · exact ih h1 hc.1 q hq
    · exact tidy_list ih h2 hc.2 q hq

theorem tidy_rep {m : Ptr → Node} : ∀ {f : Nat} {v : Val} {a : Option Ptr} {F : List Ptr}, Rep m v a F → tidy f m a = true → ∀ q ∈ F, (m q).dt ≠ .object → (m q).kvs = []
  | 0, _, _, _, _, hc => by cases hc
  | f + 1, v, a, F, hr, hc => by
    intro q hq
    have leaf : ∀ p, a = some p → F = foot p → (m q).dt ≠ .object → (m q).kvs = [] := by
      rintro p rfl rfl
      unfold foot at hq
      split at hq
      · cases hq
      · rename_i h5
        simp only [List.mem_singleton] at hq
        subst hq
        intro hd
        simp [tidy, h5, hd] at hc
        exact hc.1
    cases v with
    | nil => obtain ⟨-, rfl⟩ := hr; cases hq
    | obj ku kvs =>
      obtain ⟨p, F0, rfl, h5, rfl, hdt, -, hm⟩ := hr
      have h5' : ¬ p < 5 := by omega
      simp only [tidy, h5', decide_false, Bool.false_or, Bool.and_eq_true] at hc
      rcases List.mem_cons.1 hq with rfl | hq
      · exact fun hd => absurd hdt hd
      · rw [kids_obj hdt] at hc
        exact tidy_list (fun h1 h2 => tidy_rep h1 h2) (repM_iff.1 hm).2 hc.2 q hq
    | arr xs =>
      obtain ⟨p, F0, rfl, h5, rfl, hdt, hm⟩ := hr
      have h5' : ¬ p < 5 := by omega
      simp only [tidy, h5', decide_false, Bool.false_or, Bool.and_eq_true] at hc
      rcases List.mem_cons.1 hq with rfl | hq
      · intro hd; simpa [hd] using hc.1
      · rw [kids_arr hdt] at hc
        exact tidy_list (fun h1 h2 => tidy_rep h1 h2) hm hc.2 q hq
    | _ => obtain ⟨p, e, hf, -⟩ := hr; exact leaf p e hf

/-! ## The statement -/

mutual
/-- Nothing is to be unescaped. -/
def settled : Val → Bool
  | .raw _ => false
  | .obj ku kvs => ku && settledM kvs
  | .arr xs => settledL xs
  | _ => true
/-- The members. -/
def settledM : List (Bytes × Val) → Bool
  | [] => true
  | (_, v) :: kvs => settled v && settledM kvs
/-- The elements. -/
def settledL : List Val → Bool
  | [] => true
  | v :: vs => settled v && settledL vs
end

mutual
theorem settled_iff : ∀ {v : Val}, settled v = true ↔ Settled v
  | .raw _ => by simp [settled, Settled]
  | .obj ku kvs => by rw [settled, Settled, Bool.and_eq_true, settledM_iff]
  | .arr xs => by rw [settled, Settled, settledL_iff]
  | .nil | .str _ | .int _ _ | .float _ | .double _ | .dateTime _ | .bin _ _ | .exbin _ _ | .null | .tru | .fls | .nan | .inf => by simp [settled, Settled]
theorem settledM_iff : ∀ {kvs : List (Bytes × Val)}, settledM kvs = true ↔ SettledM kvs
  | [] => by simp [settledM, SettledM]
  | (_, v) :: kvs => by rw [settledM, SettledM, Bool.and_eq_true, settled_iff, settledM_iff]
theorem settledL_iff : ∀ {xs : List Val}, settledL xs = true ↔ SettledL xs
  | [] => by simp [settledL, SettledL]
  | v :: vs => by rw [settledL, SettledL, Bool.and_eq_true, settled_iff, settledL_iff]
end

/-- A merge function that looks at the path. -/
def byPathOp (g : Option (Bytes → MergeOp)) : Option MergeFunc := g.map (fun g _ path _ _ => g path)

/-- The same on values. -/
def askPath (g : Option (Bytes → MergeOp)) : Option (Bytes → Val → Val → MergeOp) := g.map (fun g path _ _ => g path)

theorem asks_path (g : Option (Bytes → MergeOp)) : Asks (byPathOp g) (askPath g) := by
  cases g with
  | none => exact trivial
  | some g => exact fun _ _ _ _ _ _ _ _ _ _ => rfl

/-- Merges that are covered: of objects where `mergeD` says what becomes of them, of arrays where nothing is to be unescaped and `Equal` does not panic; the
other value has no nil and nothing `clone` does not copy. Different kinds and values that are no containers are covered too. -/
def mergeable (E : Env) (g : Option (Bytes → MergeOp)) (f : Nat) (m : Ptr → Node) (p q : Ptr) : Bool :=
  copyable f m (some q) && tidy f m (some q) &&
  match valOf f m (some p), valOf f m (some q) with
  | some (.obj ku kvs), some (.obj _ kvs') => noNilM kvs' && decide (namesM kvs' + heightM kvs' + 2 ≤ f) && (mergeD E (askPath g) [] ku kvs kvs').isSome
  | some (.arr ys), some (.arr xs) => noNilL xs && decide (heightL xs ≤ f) && settledL xs && settledL ys &&
      xs.all (fun x => ys.all (fun y => match eqVal E x y with | .ok _ => true | _ => false))
  | some v, some w => v.vt ≠ w.vt || decide (1 < v.vt.ord)
  | _, _ => false

section
variable {s : St} {L : Nat → Option Live}

theorem Sound.merge (S : Sound s L) (E : Env) {i j : Nat} (hij : i ≠ j) {π ρ : List Nat} {p q : Ptr} (e : s.walk i π = .ok p) (h5 : 5 ≤ p) (e' : s.walk j ρ = .ok q)
    (g : Option (Bytes → MergeOp)) (f : Nat) (hc : mergeable E g f s.heap.mem p q = true) {h' : Heap} (er : mergeWith E (byPathOp g) f s.heap (some p) (some q) = .ok h') :
    ∃ L', Sound { s with heap := h' } L' ∧ ∀ k, k ≠ i → Keeps s { s with heap := h' } L L' k := by
  obtain ⟨x, w, Fq, hx, -, gp, hsub, hup⟩ := S.walk e h5
  obtain ⟨w', G, gq, hG⟩ := S.at e'
  have hqF := hsub p (rep_mem gp.rep h5)
  have hd : ∀ r ∈ G, r ∉ Fq := fun r hr hF => by
    obtain ⟨y, hy, hry⟩ := hG r hr
    exact (S.world.apart i j x y hij hx hy).nodes r (hsub r hF) hry
  have fin : (∃ v' Fq', Upd s.heap Fq h' (some p) v' Fq') → ∃ L', Sound { s with heap := h' } L' ∧ ∀ k, k ≠ i → Keeps s { s with heap := h' } L L' k := by
    rintro ⟨v', Fq', u⟩
    obtain ⟨v', F', u'⟩ := hup [] h' _ Fq' u (by simp)
    have st := S.world.inv.mergeWith_st (X := fun d => d ∈ x.cs ∨ s.heap.nextC ≤ d) E (byPathOp g) f (some p) (some q) er
    exact S.change hx (x' := ⟨x.p, F', x.cs ++ newIds s.heap h'⟩) rfl (S.world.step hx u' st) (S.others hx u'.frame)
  apply fin
  simp only [mergeable, Bool.and_eq_true] at hc
  obtain ⟨⟨c1, c2⟩, c3⟩ := hc
  have hcp := copyable_rep gq.rep c1
  have htd := tidy_rep gq.rep c2
  cases hv : valOf f s.heap.mem (some p) with
  | none => rw [hv] at c3; cases c3
  | some v =>
    cases hw : valOf f s.heap.mem (some q) with
    | none => rw [hv, hw] at c3; cases v <;> cases c3
    | some u =>
      obtain rfl := valOf_rep gp.rep hv
      obtain rfl := valOf_rep gq.rep hw
      rw [hv, hw] at c3
      have other : (v.vt ≠ u.vt ∨ 1 < v.vt.ord) → ∃ v' Fq', Upd s.heap Fq h' (some p) v' Fq' := by
        intro h
        have : h' = s.heap := by
          have hp := rep_dt gp.rep
          have hq := rep_dt gq.rep
          simp only [mergeWith, hp, hq] at er
          rw [if_pos] at er
          · cases er; rfl
          · exact h.imp (fun h => Ne.symm h) id
        rw [this]
        exact ⟨v, Fq, gp.upd_refl⟩
      cases v with
      | obj ku kvs =>
        cases u with
        | obj ku' kvs' =>
          simp only [Bool.and_eq_true, decide_eq_true_eq, Option.isSome_iff_exists] at c3
          obtain ⟨⟨hn, hf⟩, ⟨ku2, kvs2⟩, hm⟩ := c3
          obtain ⟨h2, F2, e2, u⟩ := mergeObject_deep E (asks_path g) f kvs' p q ku' kvs' G 0 s.heap [] ku kvs Fq ku2 kvs2 hn rfl hf gp gq hd hcp htd hm
          simp only [mergeWith, show (s.heap.mem p).dt = .object from rep_dt gp.rep, show (s.heap.mem q).dt = .object from rep_dt gq.rep] at er
          have : h' = h2 := by
            have e3 : mergeObject E (byPathOp g) f s.heap [] p q 0 = .ok h' := by simpa [VT.ord] using er
            rw [e2] at e3; cases e3; rfl
          rw [this]
          exact ⟨_, _, u⟩
        | _ => exact other (Or.inl (by simp [Val.vt]))
      | arr ys =>
        cases u with
        | arr xs =>
          simp only [Bool.and_eq_true, decide_eq_true_eq, List.all_eq_true] at c3
          obtain ⟨⟨⟨⟨hn, hf⟩, sx⟩, sy⟩, ht⟩ := c3
          obtain ⟨h2, G', e2, u⟩ := mergeWith_arr (E := E) (byPathOp g) gp gq (settledL_iff.1 sy) (settledL_iff.1 sx) hcp hn hf (fun x hx y hy => by
            have := ht x hx y hy
            split at this
            · exact ⟨_, ‹_›⟩
            · cases this) hd
          rw [e2] at er
          cases er
          exact ⟨_, _, u⟩
        | _ => exact other (Or.inl (by simp [Val.vt]))
      | _ => exact other (by simpa using c3)

end

end Dxs.Heap
