import Verif.Heap.Copy
import Verif.Heap.Step

/-!
# `Step` for Clone, Equal, MergeWith, binary values, ForcePath
-/

namespace Dxs.Heap

section
variable {X : CId → Prop} {h : Heap}

theorem Inv.setExtType_st (K : Inv h) (p : Ptr) (t : UInt8) : Step X h (setExtType h p t) := by
  unfold setExtType; split
  · exact K.upd_st p _ (by intro n; exact ⟨rfl, rfl⟩)
  · exact K.refl_st

theorem Inv.setBinary_st (K : Inv h) (p : Ptr) (b : Bytes) : Step X h (setBinary h p b) := by
  unfold setBinary; split
  · exact K.upd_st p _ (by intro n; exact ⟨rfl, rfl⟩)
  · split
    · exact K.upd_st p _ (by intro n; exact ⟨rfl, rfl⟩)
    · have s := K.reset_st (X := X) p .binary
      exact s.trans (s.inv.upd_st p _ (by intro n; exact ⟨rfl, rfl⟩))
  · exact K.refl_st

theorem cloneM_st {rec : Heap → Option Ptr → Res (Ptr × Heap)} {m : Nat}
    (hr : ∀ h, Inv h → m ≤ h.nextC → ∀ a q h', rec h a = .ok (q, h') → Step X h h') (r : Ptr) :
    ∀ (kvs : List (Bytes × Option Ptr)) {h h' : Heap}, Inv h → m ≤ h.nextC → cloneM rec r h kvs = .ok h' → Step X h h' := by
  intro kvs
  induction kvs with
  | nil => intro h h' K _ e; cases e; exact K.refl_st
  | cons kv kvs ih =>
    intro h h' K hm e
    rw [cloneM, Res.bind_eq_ok] at e
    obtain ⟨⟨q, h1⟩, e1, e⟩ := e
    have s1 := hr h K hm _ _ _ e1
    have s2 := s1.trans (s1.inv.upd_st r (fun n => { n with kvs := n.kvs ++ [(kv.1, some q)] }) (by intro n; exact ⟨rfl, rfl⟩))
    exact s2.trans (ih s2.inv (Nat.le_trans hm s2.nextC) e)

theorem cloneL_st {rec : Heap → Option Ptr → Res (Ptr × Heap)} {m : Nat}
    (hr : ∀ h, Inv h → m ≤ h.nextC → ∀ a q h', rec h a = .ok (q, h') → Step X h h') (r : Ptr) :
    ∀ (xs : List (Option Ptr)) {h h' : Heap}, Inv h → m ≤ h.nextC → cloneL rec r h xs = .ok h' → Step X h h' := by
  intro xs
  induction xs with
  | nil => intro h h' K _ e; cases e; exact K.refl_st
  | cons x xs ih =>
    intro h h' K hm e
    rw [cloneL, Res.bind_eq_ok] at e
    obtain ⟨⟨q, h1⟩, e1, e⟩ := e
    have s1 := hr h K hm _ _ _ e1
    have s2 := s1.trans (s1.inv.upd_st r (fun n => { n with arr := n.arr ++ [some q] }) (by intro n; exact ⟨rfl, rfl⟩))
    exact s2.trans (ih s2.inv (Nat.le_trans hm s2.nextC) e)

theorem clone_st (c : Option CId) (hX : ∀ d, c = some d → X d) : ∀ (f : Nat) {h : Heap}, Inv h → (∀ d, c = some d → d < h.nextC) →
    ∀ a q h', clone f h a c = .ok (q, h') → Step X h h' := by
  intro f
  induction f with
  | zero => intro h K hc a q h' e; cases e
  | succ f ih =>
    intro h K hc a q h' e
    cases a with
    | none => cases e
    | some p =>
      simp only [clone] at e
      split at e
      · cases e; exact K.refl_st
      · have s := K.getValue_st (X := X) c (h.mem p).dt hc hX
        generalize getValue h c (h.mem p).dt = r at s e
        obtain ⟨r, h1⟩ := r
        dsimp only at s e
        have hr : ∀ h2, Inv h2 → h1.nextC ≤ h2.nextC → ∀ a q h', clone f h2 a c = .ok (q, h') → Step X h2 h' :=
          fun h2 K2 h2c => ih K2 (fun d hd => Nat.lt_of_lt_of_le (hc d hd) (Nat.le_trans s.nextC h2c))
        split at e
        iterate 4
          · simp only [Res.ok.injEq, Prod.mk.injEq] at e
            rw [← e.2]
            exact s.trans (s.inv.upd_st r _ (by intro n; exact ⟨rfl, rfl⟩))
        iterate 2
          · simp only [Res.ok.injEq, Prod.mk.injEq] at e
            rw [← e.2]
            exact s.trans (s.inv.upd_st r _ (by intro n; exact ⟨rfl, rfl⟩))
        · rw [Res.bind_eq_ok] at e
          obtain ⟨h2, e2, e⟩ := e
          simp only [Res.ok.injEq, Prod.mk.injEq] at e
          rw [← e.2]
          have s1 := s.trans (s.inv.upd_st (X := X) r (fun m => { m with ku := (h1.mem p).ku }) (by intro n; exact ⟨rfl, rfl⟩))
          exact s1.trans (cloneM_st hr r _ s1.inv (Nat.le_refl _) e2)
        · rw [Res.bind_eq_ok] at e
          obtain ⟨h2, e2, e⟩ := e
          simp only [Res.ok.injEq, Prod.mk.injEq] at e
          rw [← e.2]
          exact s.trans (cloneL_st hr r _ s.inv (Nat.le_refl _) e2)
        · cases e; exact s

theorem Inv.clone_st (K : Inv h) (f : Nat) (c : Option CId) (hc : ∀ d, c = some d → d < h.nextC) (hX : ∀ d, c = some d → X d)
    {a : Option Ptr} {q : Ptr} {h' : Heap} (e : clone f h a c = .ok (q, h')) : Step X h h' := Heap.clone_st c hX f K hc a q h' e

theorem addM_st {rec : Heap → Option Ptr → Res (Ptr × Heap)} {m : Nat}
    (hr : ∀ h, Inv h → m ≤ h.nextC → ∀ a q h', rec h a = .ok (q, h') → Step X h h') (p s : Ptr) :
    ∀ (n i : Nat) {h h' : Heap}, Inv h → m ≤ h.nextC → addM rec p s n i h = .ok h' → Step X h h' := by
  intro n
  induction n with
  | zero => intro i h h' K _ e; cases e
  | succ n ih =>
    intro i h h' K hm e
    rw [addM] at e
    split at e
    · cases e; exact K.refl_st
    · rename_i kv _
      rw [Res.bind_eq_ok] at e
      obtain ⟨⟨q, h1⟩, e1, e⟩ := e
      have s0 := K.upd_st (X := X) p (fun m => { m with kvs := m.kvs ++ [(kv.1, none)] }) (by intro n; exact ⟨rfl, rfl⟩)
      have s1 := s0.trans (hr _ s0.inv (Nat.le_trans hm s0.nextC) _ _ _ e1)
      have s2 := s1.trans (s1.inv.upd_st p (fun m => { m with kvs := m.kvs.modify (h.mem p).kvs.length (fun x => (x.1, some q)) }) (by intro n; exact ⟨rfl, rfl⟩))
      exact s2.trans (ih _ s2.inv (Nat.le_trans hm s2.nextC) e)

theorem addL_st {rec : Heap → Option Ptr → Res (Ptr × Heap)} {m : Nat}
    (hr : ∀ h, Inv h → m ≤ h.nextC → ∀ a q h', rec h a = .ok (q, h') → Step X h h') (p s : Ptr) :
    ∀ (n i : Nat) {h h' : Heap}, Inv h → m ≤ h.nextC → addL rec p s n i h = .ok h' → Step X h h' := by
  intro n
  induction n with
  | zero => intro i h h' K _ e; cases e
  | succ n ih =>
    intro i h h' K hm e
    rw [addL] at e
    split at e
    · cases e; exact K.refl_st
    · rw [Res.bind_eq_ok] at e
      obtain ⟨⟨q, h1⟩, e1, e⟩ := e
      have s1 := hr _ K hm _ _ _ e1
      have s2 := s1.trans (s1.inv.upd_st p (fun m => { m with arr := m.arr ++ [some q] }) (by intro n; exact ⟨rfl, rfl⟩))
      exact s2.trans (ih _ s2.inv (Nat.le_trans hm s2.nextC) e)

theorem Inv.addFrom_st (K : Inv h) (f : Nat) (p : Ptr) (s : Option Ptr) (c : Option CId) (hc : ∀ d, c = some d → d < h.nextC)
    (hX : ∀ d, c = some d → X d) (hXp : ∀ d, (h.mem p).owner = some d → X d) {h' : Heap} (e : addFrom f h p s c = .ok h') : Step X h h' := by
  unfold addFrom at e
  cases s with
  | none => cases e
  | some s =>
    dsimp only at e
    split at e
    · have s1 := K.upd_st (X := X) p (fun m => { m with ku := (h.mem s).ku }) (by intro n; exact ⟨rfl, rfl⟩)
      refine s1.trans (addM_st (m := h.nextC) ?_ p s _ _ s1.inv (Nat.le_refl _) e)
      intro h2 K2 hn a q h3 e3
      refine K2.clone_st f _ ?_ ?_ e3
      · intro d hd
        cases hco : c with
        | none => rw [hco] at hd; exact Nat.lt_of_lt_of_le (K.owner p d hd) hn
        | some d' => rw [hco] at hd; cases hd; exact Nat.lt_of_lt_of_le (hc d hco) hn
      · intro d hd
        cases hco : c with
        | none => rw [hco] at hd; exact hXp d hd
        | some d' => rw [hco] at hd; cases hd; exact hX d hco
    · refine addL_st (m := h.nextC) ?_ p s _ _ K (Nat.le_refl _) e
      intro h2 K2 hn a q h3 e3
      exact K2.clone_st f _ (fun d hd => Nat.lt_of_lt_of_le (K.owner p d hd) hn) hXp e3
    · cases e; exact K.refl_st

theorem Inv.copyFrom_st (K : Inv h) (f : Nat) (p : Ptr) (s : Option Ptr) (c : Option CId) (hc : ∀ d, c = some d → d < h.nextC)
    (hX : ∀ d, c = some d → X d) (hXp : ∀ d, (h.mem p).owner = some d → X d) {h' : Heap} (e : copyFrom f h p s c = .ok h') : Step X h h' := by
  unfold copyFrom at e
  cases s with
  | none => cases e
  | some s =>
    dsimp only at e
    have s0 := K.reset_st (X := X) p (h.mem s).dt
    have hn0 := reset_nextC h p (h.mem s).dt
    have ho := reset_owner h p (h.mem s).dt p
    generalize Heap.reset h p (h.mem s).dt = h1 at e s0 hn0 ho
    rw [← ho] at hXp
    rw [← hn0] at hc
    refine s0.trans ?_
    have K := s0.inv
    split at e
    · have s1 := K.upd_st (X := X) p (fun m => { m with ku := (h1.mem s).ku }) (by intro n; exact ⟨rfl, rfl⟩)
      refine s1.trans (addM_st (m := h1.nextC) ?_ p s _ _ s1.inv (Nat.le_refl _) e)
      intro h2 K2 hn a q h3 e3
      refine K2.clone_st f _ ?_ ?_ e3
      · intro d hd
        cases hco : c with
        | none => rw [hco] at hd; exact Nat.lt_of_lt_of_le (K.owner p d hd) hn
        | some d' => rw [hco] at hd; cases hd; exact Nat.lt_of_lt_of_le (hc d hco) hn
      · intro d hd
        cases hco : c with
        | none => rw [hco] at hd; exact hXp d hd
        | some d' => rw [hco] at hd; cases hd; exact hX d hco
    · refine addL_st (m := h1.nextC) ?_ p s _ _ K (Nat.le_refl _) e
      intro h2 K2 hn a q h3 e3
      exact K2.clone_st f _ (fun d hd => Nat.lt_of_lt_of_le (K.owner p d hd) hn) hXp e3
    iterate 2
      · simp only [Res.ok.injEq] at e
        rw [← e]
        exact K.upd_st p _ (by intro n; exact ⟨rfl, rfl⟩)
    · split at e
      · simp only [Res.ok.injEq] at e
        rw [← e]
        exact K.upd_st p _ (by intro n; exact ⟨rfl, rfl⟩)
      · cases e; exact K.refl_st

/-! ## Equal -/

theorem equalM_st {rec : Heap → Option Ptr → Option Ptr → Res (Bool × Heap)}
    (hr : ∀ h, Inv h → ∀ a b r h', rec h a b = .ok (r, h') → Step X h h') :
    ∀ (xs ys : List (Bytes × Option Ptr)) {h h' : Heap} {r : Bool}, Inv h → equalM rec h xs ys = .ok (r, h') → Step X h h' := by
  intro xs
  induction xs with
  | nil => intro ys h h' r K e; cases e; exact K.refl_st
  | cons x xs ih =>
    intro ys h h' r K e
    cases ys with
    | nil => cases e; exact K.refl_st
    | cons y ys =>
      rw [equalM] at e
      split at e
      · cases e; exact K.refl_st
      · rw [Res.bind_eq_ok] at e
        obtain ⟨⟨b, h1⟩, e1, e⟩ := e
        have s1 := hr h K _ _ _ _ e1
        dsimp only at e
        split at e
        · exact s1.trans (ih ys s1.inv e)
        · cases e; exact s1

theorem equalL_st {rec : Heap → Option Ptr → Option Ptr → Res (Bool × Heap)}
    (hr : ∀ h, Inv h → ∀ a b r h', rec h a b = .ok (r, h') → Step X h h') :
    ∀ (xs ys : List (Option Ptr)) {h h' : Heap} {r : Bool}, Inv h → equalL rec h xs ys = .ok (r, h') → Step X h h' := by
  intro xs
  induction xs with
  | nil => intro ys h h' r K e; cases e; exact K.refl_st
  | cons x xs ih =>
    intro ys h h' r K e
    cases ys with
    | nil => cases e
    | cons y ys =>
      rw [equalL, Res.bind_eq_ok] at e
      obtain ⟨⟨b, h1⟩, e1, e⟩ := e
      have s1 := hr h K _ _ _ _ e1
      dsimp only at e
      split at e
      · exact s1.trans (ih ys s1.inv e)
      · cases e; exact s1

theorem Inv.unescAll_st (K : Inv h) (E : Env) (p : Ptr) : Step X h (unescAll E h p) :=
  K.upd_st p _ (by intro n; exact ⟨rfl, rfl⟩)

theorem equal_st (E : Env) : ∀ (f : Nat) {h : Heap}, Inv h → ∀ a b r h', equal E f h a b = .ok (r, h') → Step X h h' := by
  intro f
  induction f with
  | zero => intro h K a b r h' e; cases e
  | succ f ih =>
    intro h K a b r h' e
    cases a with
    | none => cases b <;> (cases e; exact K.refl_st)
    | some p =>
      cases b with
      | none => cases e; exact K.refl_st
      | some q =>
        simp only [equal] at e
        split at e
        · split at e
          · have s1 := K.getString_st (X := X) E .panic p
            have s2 := s1.trans (s1.inv.getString_st E .panic q)
            simp only [Res.ok.injEq, Prod.mk.injEq] at e
            rw [← e.2]
            exact s2
          · split at e <;> (cases e; exact K.refl_st)
        · split at e
          iterate 4
            · cases e; exact K.refl_st
          · split at e
            · cases e; exact K.refl_st
            · have s1 := K.unescAll_st (X := X) E p
              have s2 := s1.trans (s1.inv.unescAll_st E q)
              exact s2.trans (equalM_st (fun h2 K2 => ih K2) _ _ s2.inv e)
          · exact equalL_st (fun h2 K2 => ih K2) _ _ K e
          · split at e <;> (cases e; exact K.refl_st)

theorem memberL_st {rec : Heap → Option Ptr → Option Ptr → Res (Bool × Heap)}
    (hr : ∀ h, Inv h → ∀ a b r h', rec h a b = .ok (r, h') → Step X h h') (x : Option Ptr) :
    ∀ (ys : List (Option Ptr)) {h h' : Heap} {r : Bool}, Inv h → memberL rec h x ys = .ok (r, h') → Step X h h' := by
  intro ys
  induction ys with
  | nil => intro h h' r K e; cases e; exact K.refl_st
  | cons y ys ih =>
    intro h h' r K e
    rw [memberL, Res.bind_eq_ok] at e
    obtain ⟨⟨b, h1⟩, e1, e⟩ := e
    have s1 := hr h K _ _ _ _ e1
    dsimp only at e
    split at e
    · cases e; exact s1
    · exact s1.trans (ih s1.inv e)

theorem mergeArr_st (E : Env) (f : Nat) (ys : List (Option Ptr)) : ∀ (xs : List (Option Ptr)) {h h' : Heap} {r : List Ptr}, Inv h →
    mergeArr E f h ys xs = .ok (r, h') → Step X h h' := by
  intro xs
  induction xs with
  | nil => intro h h' r K e; cases e; exact K.refl_st
  | cons x xs ih =>
    intro h h' r K e
    rw [mergeArr, Res.bind_eq_ok] at e
    obtain ⟨⟨b, h1⟩, e1, e⟩ := e
    have s1 := memberL_st (X := X) (fun h2 K2 => equal_st E f K2) x ys K e1
    dsimp only at e
    split at e
    · exact s1.trans (ih s1.inv e)
    · rw [Res.bind_eq_ok] at e
      obtain ⟨⟨q, h2⟩, e2, e⟩ := e
      have s2 := s1.trans (s1.inv.clone_st f none (by simp) (by simp) e2)
      rw [Res.bind_eq_ok] at e
      obtain ⟨⟨qs, h3⟩, e3, e⟩ := e
      cases e
      exact s2.trans (ih s2.inv e3)

theorem mergeObject_st (E : Env) (mf : Option MergeFunc) : ∀ (f : Nat) {h h' : Heap} (path : Bytes) (v w : Ptr) (i : Nat), Inv h →
    mergeObject E mf f h path v w i = .ok h' → Step X h h' := by
  intro f
  induction f with
  | zero => intro h h' path v w i K e; cases e
  | succ f ih =>
    intro h h' path v w i K e
    rw [mergeObject] at e
    split at e
    · cases e; exact K.refl_st
    · rename_i k _ _
      have s := K.objIndex_st (X := X) E v k
      generalize objIndex E h v k = r at e s
      obtain ⟨idx, h1⟩ := r
      dsimp only at e s
      split at e
      · rw [Res.bind_eq_ok] at e
        obtain ⟨⟨q, h2⟩, e2, e⟩ := e
        have s2 := s.trans (s.inv.clone_st f none (by simp) (by simp) e2)
        refine s2.trans ((s2.inv.setKeyValue_st (X := X) E v _ (some q)).trans (ih _ _ _ _ ?_ e))
        exact (s2.inv.setKeyValue_st (X := X) E v _ (some q)).inv
      · rename_i idx
        split at e
        · exact s.trans (ih _ _ _ _ s.inv e)
        · split at e
          · cases e
          · rename_i a _
            rw [Res.bind_eq_ok] at e
            obtain ⟨⟨q, h2⟩, e2, e⟩ := e
            have s1 := s.trans (s.inv.reset_st a .null)
            have s2 := s1.trans (s1.inv.clone_st f none (by simp) (by simp) e2)
            have s3 := s2.trans (s2.inv.upd_st v (fun n => { n with kvs := n.kvs.modify idx (fun kv => (kv.1, some q)) }) (by intro n; exact ⟨rfl, rfl⟩))
            exact s3.trans (ih _ _ _ _ s3.inv e)
        · split at e
          · cases e
          · rename_i a _
            split at e
            · split at e
              · cases e
              · exact s.trans (ih _ _ _ _ s.inv e)
            · rw [Res.bind_eq_ok] at e
              obtain ⟨⟨o, h2⟩, e2, e⟩ := e
              have s1 := s.trans (s.inv.clone_st f none (by simp) (by simp) e2)
              have s2 := s1.trans (s1.inv.reset_st a .array)
              have s3 := s2.trans (s2.inv.setIndexValue_st a 0 (some o))
              rw [Res.bind_eq_ok] at e
              obtain ⟨⟨q, h3⟩, e3, e⟩ := e
              have s4 := s3.trans (s3.inv.clone_st f none (by simp) (by simp) e3)
              have s5 := s4.trans (s4.inv.setIndexValue_st a 1 (some q))
              exact s5.trans (ih _ _ _ _ s5.inv e)

theorem Inv.mergeWith_st (K : Inv h) (E : Env) (mf : Option MergeFunc) (f : Nat) (v w : Option Ptr) {h' : Heap}
    (e : mergeWith E mf f h v w = .ok h') : Step X h h' := by
  unfold mergeWith at e
  split at e
  · split at e
    · cases e; exact K.refl_st
    · split at e
      · exact mergeObject_st E mf f _ _ _ _ K e
      · rw [Res.bind_eq_ok] at e
        obtain ⟨⟨qs, h1⟩, e1, e⟩ := e
        simp only [Res.ok.injEq] at e
        rw [← e]
        have s1 := mergeArr_st (X := X) E f _ _ K e1
        exact s1.trans (s1.inv.upd_st _ _ (by intro n; exact ⟨rfl, rfl⟩))
  · cases e; exact K.refl_st

/-! ## ForcePath -/

/-- Everything allowed. -/
abbrev anyCache : CId → Prop := fun _ => True

theorem Inv.forceStep_st (K : Inv h) (E : Env) (ll la : Option Ptr) (cur : Ptr) (prev key : Bytes)
    {a b : Option Ptr} {q : Ptr} {h' : Heap} (e : forceStep E h ll la cur prev key = .ok (a, b, q, h')) : Step anyCache h h' := by
  unfold forceStep at e
  dsimp only at e
  have s := K.valueByName_st (X := anyCache) E cur key
  generalize valueByName E h cur key = r at e s
  obtain ⟨r, h1⟩ := r
  dsimp only at e s
  split at e
  · cases e; exact s
  · split at e
    · split at e
      · have s1 := s.trans (s.inv.reset_st cur .object)
        rw [Res.bind_eq_ok] at e
        obtain ⟨⟨q', h2⟩, e2, e⟩ := e
        cases e
        exact s1.trans (s1.inv.setKey_st E cur key .object (by simp) e2)
      · cases e
        exact s.trans (s.inv.setIndex_st cur _ .object (by simp))
    · rw [Res.bind_eq_ok] at e
      obtain ⟨⟨q', h2⟩, e2, e⟩ := e
      cases e
      exact s.trans (s.inv.setKey_st E cur key .object (by simp) e2)
    · split at e
      · split at e
        · cases e
          exact s.trans (newValue_step s.inv .object)
        · rw [Res.bind_eq_ok] at e
          obtain ⟨⟨q', h2⟩, e2, e⟩ := e
          rw [Res.bind_eq_ok] at e
          obtain ⟨⟨q'', h3⟩, e3, e⟩ := e
          cases e
          have s1 := s.trans (s.inv.setKey_st E _ prev .object (by simp) e2)
          exact s1.trans (s1.inv.setKey_st E _ key .object (by simp) e3)
      · rw [Res.bind_eq_ok] at e
        obtain ⟨⟨q', h2⟩, e2, e⟩ := e
        cases e
        have s1 := s.trans (s.inv.reset_st cur .object)
        exact s1.trans (s1.inv.setKey_st E cur key .object (by simp) e2)

theorem forceLoop_st (E : Env) (t : VT) : ∀ (path : List Bytes) {h h' : Heap} (ll la : Option Ptr) (cur : Ptr) (prev : Bytes) (q : Ptr), Inv h →
    forceLoop E t h ll la cur prev path = .ok (q, h') → Step anyCache h h' := by
  intro path
  induction path with
  | nil => intro h h' ll la cur prev q K e; simp only [forceLoop] at e; cases e; exact K.refl_st
  | cons k path ih =>
    intro h h' ll la cur prev q K e
    cases path with
    | nil => simp only [forceLoop] at e; exact K.setKey_st E cur k t (by simp) e
    | cons k2 path =>
      rw [forceLoop, Res.bind_eq_ok] at e
      obtain ⟨⟨a, b, c, h1⟩, e1, e⟩ := e
      have s := K.forceStep_st E _ _ _ _ _ e1
      exact s.trans (ih _ _ _ _ _ s.inv e)

end

/-! ## Clear, FreeValue, pool -/

theorem Inv.setLen {h : Heap} (I : Inv h) (c : CId) (x : Cache) (hs : x.slots = (h.caches c).slots)
    (hl : c < h.nextC → x.len ≤ (h.caches c).slots.length) : Inv (h.setC c x) := by
  have key : ∀ d, ((h.setC c x).caches d).slots = (h.caches d).slots := by
    intro d
    simp only [Heap.setC]
    split
    · rename_i e; subst e; exact hs
    · rfl
  refine ⟨I.next5, I.const, ?_, ?_, ?_, ?_, ?_, I.owner, I.pool⟩
  · intro d hd; rw [key]; exact I.capPos d hd
  · intro d hd
    rw [key]
    simp only [Heap.setC]
    split
    · rename_i e; subst e; exact hl hd
    · exact I.lenLe d hd
  · intro d hd; rw [key]; exact I.nodup d hd
  · intro d hd; rw [key]; exact I.range d hd
  · intro d hd d' hd'; rw [key, key]; exact I.disj d hd d' hd'

theorem Inv.cacheReset {h : Heap} (I : Inv h) (c : CId) (b : Bool) : Inv (Heap.cacheReset h c b) := by
  refine I.setLen c _ rfl ?_
  intro hc
  have := I.capPos c hc
  dsimp only
  split <;> omega

theorem Node.clear_dt (n : Node) : n.clear.dt = n.dt := by unfold Node.clear; split <;> rfl
theorem Node.clear_owner (n : Node) : n.clear.owner = n.owner := by unfold Node.clear; split <;> rfl

theorem Inv.clear {h : Heap} (I : Inv h) (p : Ptr) : Inv (Heap.clear h p) := by
  unfold Heap.clear
  have I' : Inv (match (h.mem p).owner with | some c => Heap.cacheReset h c false | none => h) := by
    split
    · exact I.cacheReset _ _
    · exact I
  exact I'.upd p _ (fun _ => Node.clear_dt _) (Node.clear_owner _)

theorem Inv.freeValue {h : Heap} (I : Inv h) (v : Option Ptr) : Inv (Heap.freeValue h v) := by
  unfold Heap.freeValue
  split
  · exact I
  · rename_i p
    have I1 := I.clear p
    generalize Heap.clear h p = h1 at I1 ⊢
    have I2 : Inv (h1.upd p (fun n => { n with owner := none })) := I1.set p _ (fun _ => rfl) (by simp)
    dsimp only
    split
    · exact I2
    · rename_i c hc
      have I3 := I2.cacheReset c true
      exact ⟨I3.next5, I3.const, I3.capPos, I3.lenLe, I3.nodup, I3.range, I3.disj, I3.owner, fun d hd => by
        rcases List.mem_cons.1 hd with rfl | hd
        · exact I1.owner p _ hc
        · exact I3.pool d hd⟩

theorem Inv.getCache {h : Heap} (I : Inv h) (pick : Option Nat) : Inv (Heap.getCache h pick).2 ∧ (Heap.getCache h pick).1 < (Heap.getCache h pick).2.nextC := by
  unfold Heap.getCache
  split
  · have s := newCache_spec I true 0 (by omega)
    exact ⟨s.1.inv, by rw [s.2.1, s.2.2.1]; omega⟩
  · rename_i c hc
    have hmem : c ∈ h.pool := by
      cases pick with
      | none => simp at hc
      | some i => exact List.mem_of_getElem? (by simpa using hc)
    have I1 : Inv { h with pool := h.pool.eraseIdx (pick.getD 0) } :=
      ⟨I.next5, I.const, I.capPos, I.lenLe, I.nodup, I.range, I.disj, I.owner, fun d hd => I.pool d (List.mem_of_mem_eraseIdx hd)⟩
    exact ⟨I1.setLen c _ rfl (fun h => I.lenLe c h), I.pool c hmem⟩

theorem Inv.newCacheValue {h : Heap} (I : Inv h) (t : VT) (pick : Option Nat) : Inv (Heap.newCacheValue h t pick).2 := by
  unfold Heap.newCacheValue
  split
  · exact I
  · have hg := I.getCache pick
    generalize Heap.getCache h pick = r at hg ⊢
    obtain ⟨c, h1⟩ := r
    exact (hg.1.getValue_st (X := anyCache) (some c) t (fun d hd => by cases hd; exact hg.2) (by simp)).inv

end Dxs.Heap
