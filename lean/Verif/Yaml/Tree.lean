import Verif.Yaml.Safe
import Verif.Yaml.Keep
import Verif.Load.Inside

/-!
# The YAML parser without aliases, on any memory

When the text has no `*`, nothing is copied: every node the parser makes is put into the tree once. So the value being built is a proper
tree all the time, the stack is a path in it from the root to the node that is being filled, and only that node changes. This is what makes
it possible to use the parser in the programs of `Verif.Load.Prog`.
-/

namespace Dxs.Yaml

open Dxs.Heap

/-! ## The path -/

/-- Every node of the list (deepest first) is a child of the next one. -/
def Line (m : Ptr → Node) : Ptr → List Ptr → Prop
  | _, [] => True
  | q, p :: rest => some q ∈ Node.kids (m p) ∧ Line m p rest

theorem Line.congr {m m' : Ptr → Node} : ∀ {rest : List Ptr} {q : Ptr}, (∀ p ∈ rest, m' p = m p) → Line m q rest → Line m' q rest
  | [], _, _, _ => trivial
  | p :: rest, q, h, ⟨h1, h2⟩ => ⟨by rw [h p (by simp)]; exact h1, Line.congr (fun x hx => h x (by simp [hx])) h2⟩

theorem kid_tree {h : Heap} {p q : Ptr} {w : Val} {F : List Ptr} (g : Good h (some p) w F) (hk : some q ∈ Node.kids (h.mem p)) :
    ∃ x Fq, Good h (some q) x Fq ∧ (∀ r ∈ Fq, r ∈ F) ∧ p ∉ Fq ∧ ∀ h2 w' Fq', Upd h Fq h2 (some q) w' Fq' → Moves h F p h2 := by
  obtain ⟨i, hi, he⟩ := List.mem_iff_getElem.1 hk
  have hi' : i < (Val.kids w).length := by rw [← rep_kids_len g.rep]; exact hi
  have hx : (Val.kids w)[i]? = some (Val.kids w)[i] := List.getElem?_eq_getElem hi'
  obtain ⟨p', b, F1, Fi, F2, hp, -, hb, rfl, hr, -⟩ := repL_kid g.rep hx
  cases hp
  obtain ⟨b', Fq, hb', gq, hs, hu⟩ := g.kid hx
  rw [List.getElem?_eq_getElem hi, he] at hb'
  cases hb'
  refine ⟨_, Fq, gq, hs, ?_, fun h2 w' Fq' u => ?_⟩
  · intro hpq
    rw [List.getElem?_eq_getElem hi, he] at hb
    cases hb
    have : Fq = Fi := (rep_det gq.rep hr).2
    subst this
    have := g.nodup
    simp [hpq] at this
  · obtain ⟨F', u'⟩ := hu [] h2 w' Fq' u (by simp)
    exact ⟨_, F', u'⟩

/-- The last node of the path is the root of a tree that can be changed without harm to the whole. -/
theorem down {h : Heap} {r : Ptr} {v : Val} {F : List Ptr} (g : Good h (some r) v F) : ∀ (rest : List Ptr) (q : Ptr), (∀ p ∈ q :: rest, 5 ≤ p) →
    (q :: rest).getLast? = some r → Line h.mem q rest →
    ∃ w Fq, Good h (some q) w Fq ∧ (∀ x ∈ Fq, x ∈ F) ∧ (∀ x ∈ rest, x ∈ F ∧ x ∉ Fq) ∧ ∀ h2 w' Fq', Upd h Fq h2 (some q) w' Fq' → Moves h F r h2
  | [], q, _, hl, _ => by
    simp at hl; subst hl
    exact ⟨v, F, g, fun _ => id, by simp, fun h2 w' Fq' u => ⟨_, _, u⟩⟩
  | p :: rest, q, h5, hl, ⟨hk, hL⟩ => by
    obtain ⟨w, Fp, gp, hs, hr, hu⟩ := down g rest p (fun x hx => h5 x (by simp [hx])) (by simpa using hl) hL
    obtain ⟨x, Fq, gq, hs2, hp, hu2⟩ := kid_tree gp hk
    refine ⟨x, Fq, gq, fun y hy => hs y (hs2 y hy), ?_, ?_⟩
    · intro y hy
      rcases List.mem_cons.1 hy with rfl | hy
      · exact ⟨hs _ (rep_mem gp.rep (h5 _ (by simp))), hp⟩
      · exact ⟨(hr y hy).1, fun hF => (hr y hy).2 (hs2 y hF)⟩
    · intro h2 w' Fq' u
      obtain ⟨w2, F2, u2⟩ := hu2 h2 w' Fq' u
      exact hu h2 w2 F2 u2

/-- The tree `r` (which was `F0` in `h0`) and the path `st` in it. -/
structure Along (X : CId → Prop) (h0 : Heap) (F0 : List Ptr) (r : Ptr) (st : List Ptr) (c : Option CId) (h : Heap) : Prop where
  mine : Mine X h0 F0
  moved : In X h0 F0 r h
  given : Given X h c
  last : st.getLast? = some r
  ge : ∀ q ∈ st, 5 ≤ q
  line : ∀ q rest, st = q :: rest → Line h.mem q rest

section
variable {X : CId → Prop} {h0 : Heap} {F0 : List Ptr} {r : Ptr} {c : Option CId} {h h1 : Heap} {p q : Ptr} {rest : List Ptr}

theorem Along.core (a : Along X h0 F0 r (p :: rest) c h) (hy : ∀ w F, Good h (some p) w F → Mine X h F → In X h F p h1) :
    In X h0 F0 r h1 ∧ Given X h1 c ∧ ∀ x ∈ rest, h1.mem x = h.mem x := by
  obtain ⟨st0, v, F, u⟩ := a.moved
  obtain ⟨w, Fq, gq, hs, hr, hu⟩ := down u.good rest p a.ge a.last (a.line p rest rfl)
  have m := a.mine.step u st0
  obtain ⟨st1, w1, F1, u1⟩ := hy w Fq gq (m.sub hs)
  obtain ⟨v2, F2, u2⟩ := hu h1 w1 F1 u1
  refine ⟨⟨st0.trans st1, v2, F2, UpdX.trans u u2⟩, a.given.step st1, fun x hx => ?_⟩
  exact u1.frame.mem x (a.ge x (by simp [hx])) (hr x hx).2 (u.good.live x (hr x hx).1)

/-- The node at the end of the path changes. -/
theorem Along.act (a : Along X h0 F0 r (p :: rest) c h) (hy : ∀ w F, Good h (some p) w F → Mine X h F → In X h F p h1) : Along X h0 F0 r (p :: rest) c h1 := by
  obtain ⟨m, g, hm⟩ := a.core hy
  refine ⟨a.mine, m, g, a.last, a.ge, ?_⟩
  rintro q rest' he; cases he
  exact (a.line _ _ rfl).congr hm

theorem Along.mut {E : Env} (a : Along X h0 F0 r (p :: rest) c h) (x : Mut) (e : x.run E h p = .ok h1) : Along X h0 F0 r (p :: rest) c h1 :=
  a.act (fun _ _ g m => In.mut g (a.ge p (by simp)) m x e)

/-- A child of the node at the end of the path is made and put on the path. -/
theorem Along.child (a : Along X h0 F0 r (p :: rest) c h) (h5 : 5 ≤ q) (hy : ∀ w F, Good h (some p) w F → Mine X h F → Step X h h1 ∧ Child h F p q h1) :
    Along X h0 F0 r (q :: p :: rest) c h1 := by
  have hy' : ∀ w F, Good h (some p) w F → Mine X h F → In X h F p h1 := by
    intro w F g m
    obtain ⟨s, ch⟩ := hy w F g m
    exact In.child m s ch (fun _ _ gq _ => In.refl gq)
  have hk : some q ∈ Node.kids (h1.mem p) := by
    obtain ⟨st0, v, F, u⟩ := a.moved
    obtain ⟨w, Fq, gq, hs, -, -⟩ := down u.good rest p a.ge a.last (a.line p rest rfl)
    exact (hy w Fq gq ((a.mine.step u st0).sub hs)).2.kid
  have b := a.act hy'
  refine ⟨b.mine, b.moved, b.given, by simpa using b.last, ?_, ?_⟩
  · intro x hx
    rcases List.mem_cons.1 hx with rfl | hx
    · exact h5
    · exact b.ge x hx
  · rintro q' rest' he; cases he
    exact ⟨hk, b.line _ _ rfl⟩

theorem Along.key {E : Env} (a : Along X h0 F0 r (p :: rest) c h) {k : Bytes} {t : VT} (ht : (constOf t).isNone ∨ (h.mem p).dt = .object)
    (e : setKeyCached E h p k t c = .ok (q, h1)) : Along X h0 F0 r (q :: p :: rest) c h1 := by
  have h5 := a.ge p (by simp)
  have hq : 5 ≤ q := by
    obtain ⟨st0, v, F, u⟩ := a.moved
    obtain ⟨w, Fq, g, -, -, -⟩ := down u.good rest p a.ge a.last (a.line p rest rfl)
    rcases ht with ht | ht
    · exact setKeyCached_ge E g h5 k t c a.given.lt ht e
    · obtain ⟨ku, kvs, rfl⟩ := vt_obj ((rep_dt g.rep).symm.trans ht) (rep_ne_nil g.rep)
      by_cases hnil : objOld E ku kvs k = some .nil
      · rw [setKeyCached_nil E g k t _ hnil] at e; cases e
      · obtain ⟨q', h1', w, F1, he, -, -, hge, -⟩ := setKeyCached_obj E g k t c a.given.lt hnil
        rw [he] at e
        cases e
        exact hge
  refine a.child hq (fun w F g m => ⟨g.inv.setKeyCached_st (X := X) E p k t c a.given.lt a.given.may (Given.owner g h5 m).may e, setKeyCached_child E g h5 k t c a.given.lt e⟩)

theorem Along.idx (a : Along X h0 F0 r (p :: rest) c h) (i : Int) {t : VT} (ht : (constOf t).isNone) :
    Along X h0 F0 r ((setIndexCached h p i t c).1 :: p :: rest) c (setIndexCached h p i t c).2 := by
  have h5 := a.ge p (by simp)
  have hq : 5 ≤ (setIndexCached h p i t c).1 := by
    obtain ⟨st0, v, F, u⟩ := a.moved
    obtain ⟨w, Fq, g, -, -, -⟩ := down u.good rest p a.ge a.last (a.line p rest rfl)
    exact setIndexCached_ge g h5 i t c a.given.lt ht
  exact a.child hq (fun w F g m => ⟨g.inv.setIndexCached_st (X := X) p i t c a.given.lt a.given.may, setIndexCached_child g h5 i t c a.given.lt⟩)

/-- Levels are closed. -/
theorem Along.suffix {st st' : List Ptr} (a : Along X h0 F0 r st c h) (hs : st' <:+ st) (hne : st' ≠ []) : Along X h0 F0 r st' c h := by
  obtain ⟨pre, rfl⟩ := hs
  induction pre with
  | nil => exact a
  | cons x pre ih =>
    refine ih ⟨a.mine, a.moved, a.given, ?_, fun q hq => a.ge q (by simp at hq ⊢; exact Or.inr hq), ?_⟩
    · have h1 := a.last
      have h2 : (pre ++ st') ≠ [] := by simp [hne]
      obtain ⟨y, l, e⟩ := List.exists_cons_of_ne_nil h2
      rw [List.cons_append, e] at h1
      rw [e]
      simpa using h1
    · intro q rest he
      have := a.line x (pre ++ st') rfl
      rw [he] at this
      exact this.2

end

/-! ## The parser -/

/-- The state of the parser: it has a root, and `st` is a path in it. `R` is what is known when the tree is left alone from now on. -/
def Tr (R : Ptr → Heap → Prop) (st : List Ptr) (s : St) : Prop :=
  ∃ r X h0 F0, s.p.root = some r ∧ (∀ h', In X h0 F0 r h' → R r h') ∧ Along X h0 F0 r st s.p.cache s.h

section
variable {R : Ptr → Heap → Prop} {st : List Ptr} {s s' : St} {t p q : Ptr} {rest : List Ptr}

theorem Tr.same (a : Tr R st s) (hr : s'.p.root = s.p.root) (hc : s'.p.cache = s.p.cache) (hh : s'.h = s.h) : Tr R st s' := by
  unfold Tr at *
  rw [hr, hc, hh]
  exact a

theorem Tr.mut (a : Tr R (t :: rest) s) {E : Env} (x : Mut) {h' : Heap} (e : x.run E s.h t = .ok h') : Tr R (t :: rest) { s with h := h' } := by
  obtain ⟨r, X, h0, F0, h1, h2, b⟩ := a
  exact ⟨r, X, h0, F0, h1, h2, b.mut x e⟩

theorem Tr.ge (a : Tr R (t :: rest) s) : 5 ≤ t := by
  obtain ⟨r, X, h0, F0, h1, h2, b⟩ := a
  exact b.ge t (by simp)

theorem Tr.suffix (a : Tr R st s) {st' : List Ptr} (hs : st' <:+ st) (hne : st' ≠ []) : Tr R st' s := by
  obtain ⟨r, X, h0, F0, h1, h2, b⟩ := a
  exact ⟨r, X, h0, F0, h1, h2, b.suffix hs hne⟩

theorem Tr.pop (a : Tr R (q :: p :: rest) s) : Tr R (p :: rest) s := a.suffix ⟨[q], rfl⟩ (by simp)

/-- The tree is done. -/
theorem Tr.done (a : Tr R st s) : ∃ r, s.p.root = some r ∧ R r s.h := by
  obtain ⟨r, X, h0, F0, h1, h2, b⟩ := a
  exact ⟨r, h1, h2 _ b.moved⟩

theorem strVal_tr (E : Env) (k : Nat) {amp : Res St} (a : Tr R (t :: rest) s) {v : Bytes} (hs : 42 ∉ v)
    (ha : amp = .ok s' → Tr R (t :: rest) s' ∧ s'.p.stack = s.p.stack) (e : strVal E k amp s t v = .ok s') : Tr R (t :: rest) s' ∧ s'.p.stack = s.p.stack := by
  unfold strVal at e
  split at e
  · cases e; exact ⟨a.mut (E := E) (.setBool true) rfl, rfl⟩
  split at e
  · cases e; exact ⟨a.mut (E := E) (.setBool false) rfl, rfl⟩
  split at e
  · cases e; exact ⟨a.mut (E := E) (.setDouble _) rfl, rfl⟩
  split at e
  · cases e
  rename_i c hc
  split at e
  · cases e; exact ⟨a, rfl⟩
  split at e
  · cases e; exact ⟨a, rfl⟩
  split at e
  · exact ha e
  split at e
  · rename_i h42
    exact absurd (List.mem_of_mem_head? (by rw [hc, h42]; rfl)) hs
  · cases e; exact ⟨a.mut (E := E) (.setString _) rfl, rfl⟩

theorem strVal2_tr (E : Env) (k : Nat) (a : Tr R (t :: rest) s) {v : Bytes} (hs : 42 ∉ v) (e : strVal2 E k s t v = .ok s') :
    Tr R (t :: rest) s' ∧ s'.p.stack = s.p.stack :=
  strVal_tr E k a hs (fun e => by cases e; exact ⟨a.mut (E := E) (.setString _) rfl, rfl⟩) e

theorem strVal1_tr (E : Env) (k : Nat) (a : Tr R (t :: rest) s) {v : Bytes} (hs : 42 ∉ v) (e : strVal1 E k s t v = .ok s') :
    Tr R (t :: rest) s' ∧ s'.p.stack = s.p.stack := by
  unfold strVal1 at e
  refine strVal_tr E k a hs (fun e => ?_) e
  split at e
  · cases e; exact ⟨a.mut (E := E) (.setString _) rfl, rfl⟩
  · dsimp only at e
    rename_i i hi
    have b : Tr R (t :: rest) { s with p := { s.p with uses := setUse ((v.take i).drop 1) t s.p.uses } } := a.same rfl rfl rfl
    split at e
    · cases e; exact ⟨b.mut (E := E) (.setString _) rfl, rfl⟩
    · exact strVal2_tr (s := { s with p := { s.p with uses := setUse ((v.take i).drop 1) t s.p.uses } }) E k b (fun hm => hs (List.mem_of_mem_drop (trim_sub hm))) e

theorem putKey_tr {E : Env} (a : Tr R (p :: rest) s) {k : Bytes} {ty : VT} (ht : (constOf ty).isNone ∨ (s.h.mem p).dt = .object)
    (e : putKey E s p k ty = .ok (q, s')) : Tr R (q :: p :: rest) s' ∧ s'.p.stack = s.p.stack := by
  unfold putKey at e
  obtain ⟨⟨q', h'⟩, e1, e⟩ := Res.bind_eq_ok.1 e
  cases e
  obtain ⟨r, X, h0, F0, h1, h2, b⟩ := a
  exact ⟨⟨r, X, h0, F0, h1, h2, b.key ht e1⟩, rfl⟩

theorem mergeRef_tr {k : Nat} {line key v : Bytes} (hs : 42 ∉ v) {b : Bool} (e : mergeRef k s p line key v = .ok (b, s')) : b = false ∧ s' = s := by
  unfold mergeRef at e
  split at e
  · split at e
    · cases e
    · rename_i c hc
      split at e
      · rename_i h42
        exact absurd (List.mem_of_mem_head? (by rw [hc, h42.1]; rfl)) hs
      · cases e; exact ⟨rfl, rfl⟩
  · cases e; exact ⟨rfl, rfl⟩

/-- The stack is a path in the tree. -/
def Path (R : Ptr → Heap → Prop) (s : St) : Prop := Tr R (s.p.stack.map (·.v)) s

theorem Tr.push (a : Tr R (q :: rest) s) (hs : s.p.stack.map (·.v) = rest) (m : Bool) (sp : Int) : Path R (push s m sp q) := by
  unfold Path
  simp only [Yaml.push, List.map_cons, hs]
  exact a.same rfl rfl rfl

theorem putStr_tr {E : Env} {k : Nat} (a : Tr R (p :: rest) s) {key v : Bytes} (hs : 42 ∉ v) {s1 : St}
    (e1 : putKey E s p key .string = .ok (q, s1)) (e2 : strVal1 E k s1 q v = .ok s') : Tr R (q :: p :: rest) s' ∧ s'.p.stack = s.p.stack := by
  obtain ⟨a1, h1⟩ := putKey_tr a (Or.inl rfl) e1
  obtain ⟨a2, h2⟩ := strVal1_tr E k a1 hs e2
  exact ⟨a2, h2.trans h1⟩

theorem objSame_tr {E : Env} {k : Nat} {line key v : Bytes} {sp : Int} {split : Bool} (a : Tr R (p :: rest) s) (hst : s.p.stack.map (·.v) = p :: rest) (hs : 42 ∉ v)
    (e : objSame E k line sp key v split p s = .ok s') : Path R s' := by
  unfold objSame at e
  split at e
  · cases e
  obtain ⟨⟨mg, s1⟩, e1, f⟩ := Res.bind_eq_ok.1 e
  clear e
  obtain ⟨rfl, rfl⟩ := mergeRef_tr hs e1
  have e := f
  dsimp only at e
  rw [if_neg (by decide)] at e
  split at e
  · obtain ⟨⟨q, s2⟩, e2, e⟩ := Res.bind_eq_ok.1 e
    obtain ⟨s3, e3, e⟩ := Res.bind_eq_ok.1 e
    cases e
    obtain ⟨b, hb⟩ := putStr_tr a hs e2 e3
    exact b.push (by rw [hb, hst]) _ _
  · obtain ⟨⟨q, s2⟩, e2, e⟩ := Res.bind_eq_ok.1 e
    cases e
    obtain ⟨b, hb⟩ := putKey_tr a (Or.inl rfl) e2
    exact b.push (by rw [hb, hst]) _ _

theorem objMember_tr {E : Env} {k : Nat} {key v : Bytes} (a : Tr R (p :: rest) s) (hs : 42 ∉ v) (e : objMember E k key v p s = .ok (q, s')) :
    Tr R (q :: p :: rest) s' ∧ s'.p.stack = s.p.stack := by
  unfold objMember at e
  split at e
  · exact putKey_tr a (Or.inl rfl) e
  rename_i c hv
  split at e
  · dsimp only at e
    generalize hnw : (if 0 < ((v.drop 1).findIdx? (· == 32)).getD 0 then _ else _ : Bytes × Bytes) = nw at e
    have hsw : 42 ∉ nw.2 := by
      intro hm
      rw [← hnw] at hm
      split at hm
      · exact hs (List.mem_of_mem_drop (List.mem_of_mem_drop (trim_sub hm)))
      · simp at hm
    obtain ⟨name, w⟩ := nw
    simp only at hsw e
    split at e
    · obtain ⟨⟨q, s1⟩, e1, e⟩ := Res.bind_eq_ok.1 e
      cases e
      obtain ⟨b, hb⟩ := putKey_tr a (Or.inl rfl) e1
      exact ⟨b.same rfl rfl rfl, hb⟩
    · obtain ⟨⟨q, s2⟩, e2, e⟩ := Res.bind_eq_ok.1 e
      obtain ⟨s3, e3, e⟩ := Res.bind_eq_ok.1 e
      cases e
      obtain ⟨b, hb⟩ := putStr_tr a hsw e2 e3
      exact ⟨b.same rfl rfl rfl, hb⟩
  split at e
  · rename_i h42
    exact absurd (List.mem_of_mem_head? (by rw [hv, h42]; rfl)) hs
  · obtain ⟨⟨q, s2⟩, e2, e⟩ := Res.bind_eq_ok.1 e
    obtain ⟨s3, e3, e⟩ := Res.bind_eq_ok.1 e
    cases e
    exact putStr_tr a hs e2 e3

theorem getString_tr (E : Env) (a : Tr R (p :: rest) s) :
    Tr R (p :: rest) { s with h := s.h.set p (Heap.getString E .panic (s.h.mem p)).2 } :=
  a.mut (E := E) (.string .panic) rfl

theorem objChild_tr {E : Env} {k : Nat} {line key v : Bytes} {sp : Int} (a : Tr R (p :: rest) s) (hst : s.p.stack.map (·.v) = p :: rest) (hs : 42 ∉ v)
    (e : objChild E k line sp key v p s = .ok s') : Path R s' := by
  unfold objChild at e
  split at e
  · split at e
    · cases e
    · dsimp only at e
      obtain ⟨t, e1, e⟩ := Res.bind_eq_ok.1 e
      cases e
      unfold Path
      rw [hst]
      exact (getString_tr E a).mut (E := E) (.setString _) rfl
  · have a1 : Tr R (p :: rest) (if (s.h.mem p).dt = .object then s else { s with h := Heap.reset s.h p .object }) := by
      split
      · exact a
      · exact a.mut (E := E) (.reset .object) rfl
    have hst1 : (if (s.h.mem p).dt = .object then s else { s with h := Heap.reset s.h p .object }).p.stack.map (·.v) = p :: rest := by
      split <;> exact hst
    dsimp only at e
    generalize (if (s.h.mem p).dt = .object then s else { s with h := Heap.reset s.h p .object }) = s1 at a1 hst1 e
    obtain ⟨⟨mg, s2⟩, e1, f⟩ := Res.bind_eq_ok.1 e
    clear e
    obtain ⟨rfl, rfl⟩ := mergeRef_tr hs e1
    have e := f
    dsimp only at e
    rw [if_neg (by decide)] at e
    obtain ⟨⟨q, s3⟩, e2, e⟩ := Res.bind_eq_ok.1 e
    cases e
    obtain ⟨b, hb⟩ := objMember_tr a1 hs e2
    exact b.push (by rw [hb, hst1]) _ _

theorem objBack_tr {E : Env} {k : Nat} {line key v : Bytes} {sp : Int} {split : Bool} (a : Tr R (p :: rest) s) (hst : s.p.stack.map (·.v) = p :: rest) (hs : 42 ∉ v)
    (e : objBack E k line sp key v split p s = .ok s') : Path R s' := by
  unfold objBack at e
  split at e
  · cases e
  split at e
  · obtain ⟨⟨q, s2⟩, e2, e⟩ := Res.bind_eq_ok.1 e
    cases e
    obtain ⟨b, hb⟩ := putKey_tr a (Or.inl rfl) e2
    exact b.push (by rw [hb, hst]) _ _
  · obtain ⟨⟨mg, s1⟩, e1, f⟩ := Res.bind_eq_ok.1 e
    clear e
    obtain ⟨rfl, rfl⟩ := mergeRef_tr hs e1
    have e := f
    dsimp only at e
    rw [if_neg (by decide)] at e
    obtain ⟨⟨q, s2⟩, e2, e⟩ := Res.bind_eq_ok.1 e
    obtain ⟨s3, e3, e⟩ := Res.bind_eq_ok.1 e
    cases e
    obtain ⟨b, hb⟩ := putStr_tr a hs e2 e3
    exact b.push (by rw [hb, hst]) _ _

/-- What is known before and after every line: nothing has been made, or the stack is a path, or it is empty and the tree made so far is
left behind. -/
def Ready (K : Heap → Prop) (R : Ptr → Heap → Prop) (s : St) : Prop :=
  (s.p.root = none ∧ s.p.stack = [] ∧ K s.h) ∨ ∃ st, Tr R st s ∧ (s.p.stack = [] ∨ s.p.stack.map (·.v) = st)

/-- A new tree can be made at any time, and is a tree of its own. -/
def CanMake (K : Heap → Prop) (R : Ptr → Heap → Prop) : Prop :=
  ∀ h t pick, K h → (constOf t).isNone → ∃ X F v, Good (newCacheValue h t pick).2 (some (newCacheValue h t pick).1) v F ∧ Mine X (newCacheValue h t pick).2 F ∧
    5 ≤ (newCacheValue h t pick).1 ∧ Given X (newCacheValue h t pick).2 (some (getCache h pick).1) ∧
    ∀ h', In X (newCacheValue h t pick).2 F (newCacheValue h t pick).1 h' → R (newCacheValue h t pick).1 h'

theorem newRoot_tr {K : Heap → Prop} (hm : CanMake K R) (hK : K s.h) (pick : Heap → Option Nat) {ty : VT} (ht : (constOf ty).isNone) : Path R (newRoot pick ty s) := by
  obtain ⟨X, F, v, g, m, h5, gv, hR⟩ := hm s.h ty (pick s.h) hK ht
  have hc : constOf ty = none := by simpa using ht
  have e : newCacheValue s.h ty (pick s.h) = Heap.getValue (getCache s.h (pick s.h)).2 (some (getCache s.h (pick s.h)).1) ty := by
    unfold newCacheValue; rw [hc]
  have go := Given.owner g h5 m
  unfold newRoot
  split
  · rw [e] at g m h5 gv hR
    refine ⟨_, X, _, F, rfl, hR, ⟨m, In.refl g, gv, rfl, by simpa using h5, ?_⟩⟩
    rintro q rest he; cases he; trivial
  · refine ⟨_, X, _, F, rfl, hR, ⟨m, In.refl g, go, rfl, by simpa using h5, ?_⟩⟩
    rintro q rest he; cases he; trivial

/-- The node that is being filled. -/
theorem top_tr {K : Heap → Prop} (hm : CanMake K R) (hRK : ∀ r h, R r h → K h) (a : Ready K R s) (pick : Heap → Option Nat) {ty : VT} (ht : (constOf ty).isNone) :
    Path R (if s.p.stack = [] then newRoot pick ty s else s) := by
  rcases a with ⟨h1, h2, h3⟩ | ⟨st, h1, h2⟩
  · rw [if_pos h2]; exact newRoot_tr hm h3 pick ht
  · split
    · obtain ⟨r, hr, hR⟩ := h1.done
      exact newRoot_tr hm (hRK r _ hR) pick ht
    · rcases h2 with h2 | h2
      · contradiction
      · unfold Path; rw [h2]; exact h1

theorem Path.ready {K : Heap → Prop} (a : Path R s) : Ready K R s := Or.inr ⟨_, a, Or.inr rfl⟩

theorem parseObject_tr {K : Heap → Prop} (hm : CanMake K R) (hRK : ∀ r h, R r h → K h) {E : Env} {pick : Heap → Option Nat} {k : Nat} {line : Bytes} {sp : Int}
    (a : Ready K R s) (hs : 42 ∉ line) (e : parseObject E pick k line sp s = .ok s') : Path R s' := by
  unfold parseObject at e
  have a1 := top_tr hm hRK a pick (ty := .object) rfl
  dsimp only at e
  generalize (if s.p.stack = [] then newRoot pick .object s else s) = s1 at a1 e
  rcases hst : s1.p.stack with _ | ⟨n, l⟩
  · rw [hst] at e; cases e
  rw [hst] at e
  simp only [List.head?_cons] at e
  unfold Path at a1
  rw [hst, List.map_cons] at a1
  have a2 : Tr R (n.v :: l.map (·.v)) { s1 with p := { s1.p with first := false, stack := n :: l } } := a1.same rfl rfl rfl
  rcases hkv : splitKv line with ⟨key, v, split⟩
  have hv : 42 ∉ v := fun hm => hs (splitKv_sub (Or.inr (by rw [hkv]; exact hm)))
  rw [hkv] at e
  simp only at e
  generalize (if ¬s.p.stack = [] ∧ s1.p.first = true ∧ n.isMap = true then s1.p.last + 2 else s1.p.last) = last at e
  split at e
  · cases e
  split at e
  · exact objSame_tr a2 rfl hv e
  split at e
  · exact objChild_tr a2 rfl hv e
  · exact objBack_tr a2 rfl hv e

theorem parseArray_tr {K : Heap → Prop} (hm : CanMake K R) (hRK : ∀ r h, R r h → K h) {E : Env} {pick : Heap → Option Nat} {k : Nat} {line : Bytes} {sp : Int}
    (a : Ready K R s) (hs : 42 ∉ line) (e : parseArray E pick k line sp s = .ok s') : Path R s' := by
  unfold parseArray at e
  split at e
  · cases e
  have a1 := top_tr hm hRK a pick (ty := .array) rfl
  dsimp only at e
  generalize (if s.p.stack = [] then newRoot pick .array s else s) = s1 at a1 e
  rcases hst : s1.p.stack with _ | ⟨n, l⟩
  · rw [hst] at e; cases e
  rw [hst] at e
  simp only [List.head?_cons] at e
  unfold Path at a1
  rw [hst, List.map_cons] at a1
  have a2 : Tr R (n.v :: l.map (·.v)) (if (s1.h.mem n.v).dt = .object then { s1 with h := Heap.reset s1.h n.v .array } else s1) := by
    split
    · exact a1.mut (E := E) (.reset .array) rfl
    · exact a1
  have hst2 : (if (s1.h.mem n.v).dt = .object then { s1 with h := Heap.reset s1.h n.v .array } else s1).p.stack = n :: l := by
    split <;> exact hst
  generalize (if (s1.h.mem n.v).dt = .object then ({ s1 with h := Heap.reset s1.h n.v .array } : St) else s1) = s2 at a2 hst2 e
  split at e
  · have ht : (constOf (if trim line ≠ [] then VT.string else VT.array)).isNone := by split <;> rfl
    generalize (if trim line ≠ [] then VT.string else VT.array) = ty at ht e
    have a3 : Tr R ((setIndexCached s2.h n.v (-1) ty s2.p.cache).1 :: n.v :: l.map (·.v)) { s2 with h := (setIndexCached s2.h n.v (-1) ty s2.p.cache).2 } := by
      obtain ⟨r, X, h0, F0, h1, h2, b⟩ := a2
      exact ⟨r, X, h0, F0, h1, h2, b.idx (-1) ht⟩
    generalize setIndexCached s2.h n.v (-1) ty s2.p.cache = x at a3 e
    obtain ⟨q, h3⟩ := x
    simp only at a3 e
    split at e
    · cases e; exact a3.push (by simp [hst2]) _ _
    rcases hkv : splitKv (trim line) with ⟨key, v, split⟩
    have hk : 42 ∉ key := fun hm => hs (trim_sub (splitKv_sub (Or.inl (by rw [hkv]; exact hm))))
    have hv : 42 ∉ v := fun hm => hs (trim_sub (splitKv_sub (Or.inr (by rw [hkv]; exact hm))))
    rw [hkv] at e
    simp only at e
    split at e
    · obtain ⟨b, hb⟩ := strVal1_tr E k (a3.same (s' := push { s2 with h := h3 } false sp q) rfl rfl rfl) hk e
      unfold Path
      rw [hb]
      simpa [Yaml.push, hst2] using b
    split at e
    · cases e
    have a4 : Tr R (q :: n.v :: l.map (·.v)) { p := { (push { p := s2.p, h := h3 } false sp q).p with first := true, stack := (push { p := s2.p, h := h3 } false sp q).p.stack.modifyHead (fun n => { n with isMap := true }) }, h := Heap.reset h3 q .object } :=
      (a3.mut (E := E) (.reset .object) rfl).same rfl rfl rfl
    have hst4 : ((push { p := s2.p, h := h3 } false sp q).p.stack.modifyHead (fun n => { n with isMap := true })).map (·.v) = q :: n.v :: l.map (·.v) := by
      simp [Yaml.push, hst2]
    have hobj : ((Heap.reset h3 q .object).mem q).dt = .object := by rw [reset_mem a3.ge]; rfl
    split at e
    · obtain ⟨⟨c, s5⟩, e1, e⟩ := Res.bind_eq_ok.1 e
      cases e
      obtain ⟨b, hb⟩ := putKey_tr a4 (Or.inr hobj) e1
      exact b.push (by rw [hb]; exact hst4) _ _
    · obtain ⟨⟨c, s5⟩, e1, e⟩ := Res.bind_eq_ok.1 e
      obtain ⟨s6, e2, e⟩ := Res.bind_eq_ok.1 e
      cases e
      obtain ⟨b, hb⟩ := putStr_tr a4 hv e1 e2
      exact b.push (by rw [hb]; exact hst4) _ _
  · have fin : ∀ {s'}, Tr R (n.v :: l.map (·.v)) s' → s'.p.stack = s2.p.stack → Path R s' := by
      intro s' b hb
      unfold Path
      rw [hb, hst2]
      exact b
    split at e
    · cases e; exact fin a2 rfl
    · obtain ⟨t, e1, e⟩ := Res.bind_eq_ok.1 e
      cases e
      exact fin ((getString_tr E a2).mut (E := E) (.setString _) rfl) rfl

theorem closeTo_suffix (sp : Int) : ∀ l : List YNode, closeTo sp l <:+ l
  | [] => List.suffix_refl _
  | [_] => List.suffix_refl _
  | n :: m :: r => by
    unfold closeTo
    split
    · exact List.suffix_refl _
    · exact (closeTo_suffix sp (m :: r)).trans (List.suffix_cons _ _)

theorem Ready.suffix {K : Heap → Prop} (a : Ready K R s) {st : List YNode} (hs : st <:+ s.p.stack) : Ready K R { s with p := { s.p with stack := st } } := by
  rcases a with ⟨h1, h2, h3⟩ | ⟨st', h1, h2⟩
  · refine Or.inl ⟨h1, ?_, h3⟩
    rw [h2] at hs
    exact List.suffix_nil.1 hs
  · by_cases hne : st = []
    · exact Or.inr ⟨st', h1.same rfl rfl rfl, Or.inl hne⟩
    · rcases h2 with h2 | rfl
      · rw [h2] at hs; exact absurd (List.suffix_nil.1 hs) hne
      · exact Or.inr ⟨st.map (·.v), (h1.suffix (hs.map _) (by simpa using hne)).same rfl rfl rfl, Or.inr rfl⟩

theorem cutComment_sub {l : Bytes} {c : UInt8} (h : c ∈ cutComment l) : c ∈ l := by
  unfold cutComment at h
  split at h
  · split at h
    · exact List.mem_of_mem_take h
    · exact h
  · exact h

theorem parseLine_tr {K : Heap → Prop} (hm : CanMake K R) (hRK : ∀ r h, R r h → K h) {E : Env} {pick : Heap → Option Nat} {k : Nat} {line : Bytes} {sp : Nat}
    (a : Ready K R s) (hs : 42 ∉ line) (e : parseLine E pick k line sp s = .ok s') : Ready K R s' := by
  unfold parseLine at e
  dsimp only at e
  split at e
  · cases e
  split at e
  · cases e; exact a
  have hs' : 42 ∉ cutComment (line.drop sp) := fun h => hs (List.mem_of_mem_drop (cutComment_sub h))
  generalize (if s.p.first = true ∧ (s.p.stack.head?.map (·.isMap)) = some true then s.p.last + 2 else s.p.last) = last at e
  have hsuf : (if last > sp then closeTo sp (s.p.stack.drop 2) else if last = sp then s.p.stack.drop 1 else s.p.stack) <:+ s.p.stack := by
    split
    · exact (closeTo_suffix _ _).trans (List.drop_suffix _ _)
    split
    · exact List.drop_suffix _ _
    · exact List.suffix_refl _
  have a1 := a.suffix hsuf
  generalize (if last > sp then closeTo sp (s.p.stack.drop 2) else if last = sp then s.p.stack.drop 1 else s.p.stack) = st at a1 e
  split at e
  · obtain ⟨s1, e1, e⟩ := Res.bind_eq_ok.1 e
    cases e
    have b := parseArray_tr hm hRK a1 (fun h => hs' (List.mem_of_mem_drop h)) e1
    exact Path.ready (s := { s1 with p := { s1.p with last := sp } }) (Tr.same b rfl rfl rfl)
  · obtain ⟨s1, e1, e⟩ := Res.bind_eq_ok.1 e
    cases e
    have b := parseObject_tr hm hRK a1 hs' e1
    exact Path.ready (s := { s1 with p := { s1.p with last := sp } }) (Tr.same b rfl rfl rfl)

theorem parseLoop_tr {K : Heap → Prop} (hm : CanMake K R) (hRK : ∀ r h, R r h → K h) {E : Env} {pick : Heap → Option Nat} {k : Nat} {data : Bytes} (hs : 42 ∉ data) :
    ∀ (f i : Nat) {s s' : St}, Ready K R s → parseLoop E pick k data f i s = .ok s' → Ready K R s'
  | 0, _, _, _, _, e => by cases e
  | f + 1, i, s, s', a, e => by
    unfold parseLoop at e
    dsimp only at e
    have hs' : 42 ∉ (data.drop i).takeWhile (· != 10) := fun h => hs (List.mem_of_mem_drop ((List.takeWhile_sublist _).mem h))
    generalize (if ((data.drop i).takeWhile (· != 10)).length < (data.drop i).length then i + ((data.drop i).takeWhile (· != 10)).length else data.length) = stop at e
    split at e
    · split at e
      · cases e; exact a
      · exact parseLoop_tr hm hRK hs f _ a e
    · obtain ⟨s1, e1, e⟩ := Res.bind_eq_ok.1 e
      have a1 := parseLine_tr hm hRK a hs' e1
      split at e
      · cases e; exact a1
      · exact parseLoop_tr hm hRK hs f _ a1 e

theorem parse_tr {K : Heap → Prop} (hm : CanMake K R) (hRK : ∀ r h, R r h → K h) {E : Env} {pick : Heap → Option Nat} {f : Nat} {data : Bytes} (hs : 42 ∉ data)
    (a : Ready K R s) (e : parse E pick f data s = .ok s') : Ready K R s' := by
  unfold parse at e
  split at e
  · cases e; exact a
  · refine parseLoop_tr hm hRK hs f 0 (s := { s with p := { s.p with last := -1 } }) ?_ e
    rcases a with h | ⟨st, h1, h2⟩
    · exact Or.inl h
    · exact Or.inr ⟨st, h1.same rfl rfl rfl, h2⟩

/-! ## After an error -/

theorem Ready.known {K : Heap → Prop} (hRK : ∀ r h, R r h → K h) (a : Ready K R s) : K s.h := by
  rcases a with ⟨-, -, h3⟩ | ⟨st, h1, -⟩
  · exact h3
  · obtain ⟨r, -, h⟩ := h1.done
    exact hRK r _ h

theorem Path.known {K : Heap → Prop} (hRK : ∀ r h, R r h → K h) (a : Path R s) : K s.h := (Path.ready (K := K) a).known hRK

theorem Tr.known {K : Heap → Prop} (hRK : ∀ r h, R r h → K h) (a : Tr R st s) : K s.h := by
  obtain ⟨r, -, h⟩ := a.done
  exact hRK r _ h

theorem parseArrayErr_tr {K : Heap → Prop} (hm : CanMake K R) (hRK : ∀ r h, R r h → K h) (pick : Heap → Option Nat) (line : Bytes) (sp : Int) (a : Ready K R s) :
    K (parseArrayErr pick line sp s) := by
  unfold parseArrayErr
  split
  · exact a.known hRK
  have a1 : Path R (arrStart pick s) := top_tr hm hRK a pick (ty := .array) rfl
  dsimp only
  generalize arrStart pick s = s1 at a1
  rcases hst : s1.p.stack with _ | ⟨n, l⟩
  · exact a1.known hRK
  simp only [List.head?_cons]
  unfold Path at a1
  rw [hst, List.map_cons] at a1
  have a2 : Tr R (n.v :: l.map (·.v)) (if (s1.h.mem n.v).dt = .object then { s1 with h := Heap.reset s1.h n.v .array } else s1) := by
    split
    · exact a1.mut (E := envEx) (.reset .array) rfl
    · exact a1
  generalize (if (s1.h.mem n.v).dt = .object then ({ s1 with h := Heap.reset s1.h n.v .array } : St) else s1) = s2 at a2
  have a3 : Tr R ((setIndexCached s2.h n.v (-1) .string s2.p.cache).1 :: n.v :: l.map (·.v)) { s2 with h := (setIndexCached s2.h n.v (-1) .string s2.p.cache).2 } := by
    obtain ⟨r, X, h0, F0, h1, h2, b⟩ := a2
    exact ⟨r, X, h0, F0, h1, h2, b.idx (-1) rfl⟩
  exact a3.known hRK

theorem parseObjectErr_tr {K : Heap → Prop} (hm : CanMake K R) (hRK : ∀ r h, R r h → K h) (pick : Heap → Option Nat) (line : Bytes) (sp : Int) (a : Ready K R s) :
    K (parseObjectErr pick line sp s) := by
  unfold parseObjectErr
  have a1 : Path R (objStart pick s) := top_tr hm hRK a pick (ty := .object) rfl
  dsimp only
  generalize objStart pick s = s1 at a1
  have k1 := a1.known hRK
  rcases hst : s1.p.stack with _ | ⟨n, l⟩
  · exact k1
  simp only [List.head?_cons]
  unfold Path at a1
  rw [hst, List.map_cons] at a1
  have k2 : K (reset s1.h n.v .object) := (a1.mut (E := envEx) (.reset .object) rfl).known hRK
  repeat' split
  all_goals first | exact k1 | exact k2

theorem parseLineErr_tr {K : Heap → Prop} (hm : CanMake K R) (hRK : ∀ r h, R r h → K h) (pick : Heap → Option Nat) (line : Bytes) (sp : Nat) (a : Ready K R s) :
    K (parseLineErr pick line sp s) := by
  unfold parseLineErr
  dsimp only
  split
  · exact a.known hRK
  generalize (if s.p.first = true ∧ (s.p.stack.head?.map (·.isMap)) = some true then s.p.last + 2 else s.p.last) = last
  have hsuf : (if last > sp then closeTo sp (s.p.stack.drop 2) else if last = sp then s.p.stack.drop 1 else s.p.stack) <:+ s.p.stack := by
    split
    · exact (closeTo_suffix _ _).trans (List.drop_suffix _ _)
    split
    · exact List.drop_suffix _ _
    · exact List.suffix_refl _
  have a1 := a.suffix hsuf
  split
  · exact parseArrayErr_tr hm hRK pick _ _ a1
  · exact parseObjectErr_tr hm hRK pick _ _ a1

theorem parseLoopErr_tr {K : Heap → Prop} (hm : CanMake K R) (hRK : ∀ r h, R r h → K h) {E : Env} {pick : Heap → Option Nat} {k : Nat} {data : Bytes} (hs : 42 ∉ data) :
    ∀ (f i : Nat) {s : St}, Ready K R s → K (parseLoopErr E pick k data f i s)
  | 0, _, _, a => a.known hRK
  | f + 1, i, s, a => by
    rw [parseLoopErr]
    dsimp only
    have hs' : 42 ∉ (data.drop i).takeWhile (· != 10) := fun h => hs (List.mem_of_mem_drop ((List.takeWhile_sublist _).mem h))
    generalize (if ((data.drop i).takeWhile (· != 10)).length < (data.drop i).length then i + ((data.drop i).takeWhile (· != 10)).length else data.length) = stop
    split
    · split
      · exact a.known hRK
      · exact parseLoopErr_tr hm hRK hs f _ a
    · split
      · rename_i s1 e1
        have a1 := parseLine_tr hm hRK a hs' e1
        split
        · exact a1.known hRK
        · exact parseLoopErr_tr hm hRK hs f _ a1
      · exact parseLineErr_tr hm hRK pick _ _ a

theorem parseErr_tr {K : Heap → Prop} (hm : CanMake K R) (hRK : ∀ r h, R r h → K h) {E : Env} {pick : Heap → Option Nat} {f : Nat} {data : Bytes} (hs : 42 ∉ data)
    (a : Ready K R s) : K (parseErr E pick f data s) := by
  unfold parseErr
  split
  · exact a.known hRK
  · refine parseLoopErr_tr hm hRK hs f 0 (s := { s with p := { s.p with last := -1 } }) ?_
    rcases a with h | ⟨st, h1, h2⟩
    · exact Or.inl h
    · exact Or.inr ⟨st, h1.same rfl rfl rfl, h2⟩

end

end Dxs.Yaml
