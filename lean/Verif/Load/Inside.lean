import Verif.Load.BsonFill
import Verif.Reflect.Proof

/-!
# `ForcePath` and Go data, on any value

`ForcePath` and `SetValue` keep any value a proper tree, change nothing but the value and memory that was available, and use no
caches but those of the value.
-/

namespace Dxs.Heap

/-- The value `p` stays a proper tree; only the caches in `X` are used. -/
def In (X : CId → Prop) (h : Heap) (F : List Ptr) (p : Ptr) (h' : Heap) : Prop := Step X h h' ∧ Moves h F p h'

section
variable {X : CId → Prop} {h : Heap} {p : Ptr} {F : List Ptr} {w : Val}

theorem In.refl (g : Good h (some p) w F) : In X h F p h := ⟨Step.refl g.inv, w, F, g.upd_refl⟩

/-- One thing after the other. -/
theorem In.trans {h1 h2 : Heap} (m : Mine X h F) (a : In X h F p h1) (b : ∀ w1 F1, Good h1 (some p) w1 F1 → Mine X h1 F1 → In X h1 F1 p h2) : In X h F p h2 := by
  obtain ⟨s1, w1, F1, u1⟩ := a
  obtain ⟨s2, w2, F2, u2⟩ := b w1 F1 u1.good (m.step u1 s1)
  exact ⟨s1.trans s2, w2, F2, UpdX.trans u1 u2⟩

/-- Something happens to a child. -/
theorem In.child {q : Ptr} {h1 h2 : Heap} (m : Mine X h F) (s : Step X h h1) (ch : Child h F p q h1)
    (b : ∀ w1 Fq, Good h1 (some q) w1 Fq → Mine X h1 Fq → In X h1 Fq q h2) : In X h F p h2 := by
  obtain ⟨v1, F1, w1, Fq, u1, gq, hs, hu⟩ := ch.child
  obtain ⟨s2, w2, Fq2, u2⟩ := b w1 Fq gq ((m.step u1 s).sub hs)
  obtain ⟨v3, F3, u3⟩ := hu h2 w2 Fq2 u2
  exact ⟨s.trans s2, v3, F3, UpdX.trans u1 u3⟩

theorem In.mut {E : Env} (g : Good h (some p) w F) (h5 : 5 ≤ p) (m : Mine X h F) (a : Mut) {h' : Heap} (e : a.run E h p = .ok h') : In X h F p h' :=
  ⟨Mut.step g.inv a (fun d hd => m.owner p (rep_mem g.rep h5) d hd) e, Mut.moves g h5 a e⟩

/-! ## Children -/

theorem setIndexCached_ge (g : Good h (some p) w F) (h5 : 5 ≤ p) (idx : Int) (t : VT) (c : Option CId) (hc : ∀ d, c = some d → d < h.nextC)
    (ht : (constOf t).isNone) : 5 ≤ (setIndexCached h p idx t c).1 := by
  obtain ⟨xs, F0, u⟩ := toArr g h5
  obtain ⟨hd, -⟩ := arr_first h h5
  have hn : (if (h.mem p).dt = .array then h else reset h p .array).nextC = h.nextC := by
    split
    · rfl
    · exact (Same.reset h p .array).nextC
  have e : setIndexCached h p idx t c = setIndexCached (if (h.mem p).dt = .array then h else reset h p .array) p idx t c := by
    unfold setIndexCached
    simp only [hd, if_true]
  rw [e]
  rw [← hn] at hc
  generalize (if (h.mem p).dt = .array then h else reset h p .array) = h0 at u hc
  obtain ⟨-, -, -, -, -, h6⟩ := setIndexCached_arr u.good idx t c hc
  exact h6 ht

theorem setKeyCached_ge (E : Env) (g : Good h (some p) w F) (h5 : 5 ≤ p) (k : Bytes) (t : VT) (c : Option CId) (hc : ∀ d, c = some d → d < h.nextC)
    (ht : (constOf t).isNone) {q : Ptr} {h1 : Heap} (e : setKeyCached E h p k t c = .ok (q, h1)) : 5 ≤ q := by
  by_cases ha : (h.mem p).dt = .array ∧ strIdx E k ≠ -1
  · have e' : setKeyCached E h p k t c = .ok (setIndexCached h p (strIdx E k) t (h.mem p).owner) := by
      unfold setKeyCached setIndex; rw [if_pos ha]
    rw [e', Res.ok.injEq] at e
    have := setIndexCached_ge g h5 (strIdx E k) t (h.mem p).owner (fun d => g.inv.owner p d) ht
    rw [e] at this; exact this
  · obtain ⟨ku, kvs, F0, u⟩ := toObj g h5
    obtain ⟨hd, -⟩ := obj_first h h5
    have hn : (if (h.mem p).dt = .object then h else reset h p .object).nextC = h.nextC := by
      split
      · rfl
      · exact (Same.reset h p .object).nextC
    have e' : setKeyCached E h p k t c = setKeyCached E (if (h.mem p).dt = .object then h else reset h p .object) p k t c := by
      by_cases hb : (h.mem p).dt = .object
      · rw [if_pos hb]
      · rw [if_neg hb] at hd ⊢
        exact setKeyCached_reset E h5 k t c hb ha
    rw [e'] at e
    rw [← hn] at hc
    generalize (if (h.mem p).dt = .object then h else reset h p .object) = h0 at u e hc
    by_cases hnil : objOld E ku kvs k = some .nil
    · rw [setKeyCached_nil E u.good k t _ hnil] at e; cases e
    · obtain ⟨q', h1', w, F1, he, -, -, hge, -⟩ := setKeyCached_obj E u.good k t c hc hnil
      rw [he] at e
      cases e
      exact hge

/-- The caches an operation is given may be used. -/
structure Given (X : CId → Prop) (h : Heap) (c : Option CId) : Prop where
  lt : ∀ d, c = some d → d < h.nextC
  may : ∀ d, c = some d → X d

theorem Given.step {c : Option CId} (a : Given X h c) {h1 : Heap} (s : Step X h h1) : Given X h1 c :=
  ⟨fun d hd => Nat.lt_of_lt_of_le (a.lt d hd) s.nextC, a.may⟩

theorem Given.owner (g : Good h (some p) w F) (h5 : 5 ≤ p) (m : Mine X h F) : Given X h (h.mem p).owner :=
  ⟨fun d hd => g.inv.owner p d hd, fun d hd => m.owner p (rep_mem g.rep h5) d hd⟩

/-- `SetKeyCached`, then something happens to the child. -/
theorem In.key {E : Env} (g : Good h (some p) w F) (h5 : 5 ≤ p) (m : Mine X h F) {c : Option CId} (a : Given X h c) {k : Bytes} {t : VT} {q : Ptr} {h1 h2 : Heap}
    (e : setKeyCached E h p k t c = .ok (q, h1))
    (b : ∀ w1 Fq, Good h1 (some q) w1 Fq → ((constOf t).isNone → 5 ≤ q) → Mine X h1 Fq → Given X h1 c → In X h1 Fq q h2) : In X h F p h2 := by
  have s := g.inv.setKeyCached_st (X := X) E p k t c a.lt a.may (Given.owner g h5 m).may e
  exact In.child m s (setKeyCached_child E g h5 k t c a.lt e) (fun w1 Fq gq mq => b w1 Fq gq (fun ht => setKeyCached_ge E g h5 k t c a.lt ht e) mq (a.step s))

/-- `SetIndexCached`, then something happens to the child. -/
theorem In.idx (g : Good h (some p) w F) (h5 : 5 ≤ p) (m : Mine X h F) {c : Option CId} (a : Given X h c) (i : Int) (t : VT) {h2 : Heap}
    (b : ∀ w1 Fq, Good (setIndexCached h p i t c).2 (some (setIndexCached h p i t c).1) w1 Fq → ((constOf t).isNone → 5 ≤ (setIndexCached h p i t c).1) →
      Mine X (setIndexCached h p i t c).2 Fq → Given X (setIndexCached h p i t c).2 c → In X (setIndexCached h p i t c).2 Fq (setIndexCached h p i t c).1 h2) :
    In X h F p h2 := by
  have s := g.inv.setIndexCached_st (X := X) p i t c a.lt a.may
  exact In.child m s (setIndexCached_child g h5 i t c a.lt) (fun w1 Fq gq mq => b w1 Fq gq (fun ht => setIndexCached_ge g h5 i t c a.lt ht) mq (a.step s))

/-- A lookup gives a node of the tree. -/
theorem valueByName_child (E : Env) (g : Good h (some p) w F) (k : Bytes) {q : Ptr} {h1 : Heap} (e : valueByName E h p k = (some q, h1)) : Child h F p q h1 := by
  by_cases ho : (h.mem p).dt = .object
  · obtain ⟨ku, kvs, rfl⟩ := vt_obj ((rep_dt g.rep).symm.trans ho) (rep_ne_nil g.rep)
    obtain ⟨hidx, u1, -⟩ := objIndex_upd E g k
    have e' : valueByName E h p k = objGet E h p k := by unfold valueByName; rw [ho]
    rw [e'] at e
    unfold objGet at e
    have hlt := @indexByName_lt _ E ku kvs k
    have hl := indexByName_length E ku kvs k
    rcases hi : indexByName E ku kvs k with ⟨i, ku', kvs'⟩
    rw [hi] at hidx u1 hlt hl
    simp only at hidx u1 hlt hl
    rcases hoo : objIndex E h p k with ⟨i', h1'⟩
    rw [hoo] at hidx u1 e
    simp only [Prod.mk.injEq] at hidx u1 e
    subst hidx
    obtain ⟨hq, rfl⟩ := e
    cases i' with
    | none => cases hq
    | some i =>
      simp only [Option.bind_some] at hq
      obtain ⟨x, hx⟩ : ∃ x, (kvs'.map Prod.snd)[i]? = some x := ⟨_, List.getElem?_eq_getElem (by have := hlt rfl; simp; omega)⟩
      refine Child.of (i := i) (w := x) u1 (by simp only [Val.kids, hx]) ?_
      rw [kids_obj (rep_dt u1.good.rep), List.getElem?_map]
      cases hkv : (h1'.mem p).kvs[i]? with
      | none => rw [hkv] at hq; cases hq
      | some kv => rw [hkv] at hq; simp at hq; simp [hq]
  · by_cases ha : (h.mem p).dt = .array
    · obtain ⟨xs, rfl⟩ := vt_arr ((rep_dt g.rep).symm.trans ha) (rep_ne_nil g.rep)
      have e' : valueByName E h p k = (if inRange (strIdx E k) (h.mem p).arr.length then ((h.mem p).arr[(strIdx E k).toNat]?).bind id else none, h) := by
        unfold valueByName; rw [ha]; simp only; split <;> rfl
      rw [e'] at e
      simp only [Prod.mk.injEq] at e
      obtain ⟨hq, rfl⟩ := e
      split at hq
      · rename_i hr
        have hr := inRange_iff.1 hr
        rw [g.arr_len] at hr
        obtain ⟨x, hx⟩ : ∃ x, xs[(strIdx E k).toNat]? = some x := ⟨_, List.getElem?_eq_getElem (by omega)⟩
        refine Child.of (i := (strIdx E k).toNat) (w := x) g.upd_refl hx ?_
        rw [kids_arr ha]
        obtain ⟨y, hy, rfl⟩ := Option.bind_eq_some_iff.1 hq
        exact hy
      · cases hq
    · have e' : valueByName E h p k = (none, h) := by
        unfold valueByName; split <;> first | contradiction | rfl
      rw [e'] at e; cases e

/-! ## `ForcePath` -/

/-- Objects and arrays are no constants. -/
theorem box_ge (I : Inv h) {q : Ptr} (hq : (h.mem q).dt = .object ∨ (h.mem q).dt = .array) : 5 ≤ q := by
  rcases Nat.lt_or_ge q 5 with h5 | h5
  · exfalso
    have hd := I.const q h5
    have : q = 0 ∨ q = 1 ∨ q = 2 ∨ q = 3 ∨ q = 4 := by omega
    rw [hd] at hq
    rcases this with rfl | rfl | rfl | rfl | rfl <;> simp [constVT, nullP, trueP, falseP, nanP] at hq
  · exact h5

/-- What `SetKey` returns, then something happens to it. -/
theorem In.setKey {E : Env} (g : Good h (some p) w F) (h5 : 5 ≤ p) (m : Mine X h F) {k : Bytes} {t : VT} {q : Ptr} {h1 h2 : Heap}
    (e : Heap.setKey E h p k t = .ok (q, h1)) (b : ∀ w1 Fq, Good h1 (some q) w1 Fq → ((constOf t).isNone → 5 ≤ q) → Mine X h1 Fq → In X h1 Fq q h2) : In X h F p h2 :=
  In.key g h5 m (Given.owner g h5 m) e (fun w1 Fq gq h6 mq _ => b w1 Fq gq h6 mq)

/-- One round of `ForcePath`, then the rest. -/
theorem forceStep_in {E : Env} (g : Good h (some p) w F) (h5 : 5 ≤ p) (m : Mine X h F) {ll la : Option Ptr} {prev key : Bytes} {a b : Option Ptr} {q : Ptr} {h1 h2 : Heap}
    (e : forceStep E h ll la p prev key = .ok (a, b, q, h1)) (rest : ∀ w1 Fq, Good h1 (some q) w1 Fq → 5 ≤ q → Mine X h1 Fq → In X h1 Fq q h2) : In X h F p h2 := by
  unfold forceStep at e
  have st := g.inv.valueByName_st (X := X) E p key
  have ch := fun {q h1} => valueByName_child E g key (q := q) (h1 := h1)
  obtain ⟨v1, F1, u1, -⟩ := valueByName_any E g key
  dsimp only at e
  generalize valueByName E h p key = r at e st ch u1
  obtain ⟨r, h0⟩ := r
  simp only at e st u1
  split at e
  · rename_i q' hf
    cases e
    obtain ⟨rfl, hq⟩ := Option.filter_eq_some_iff.1 hf
    simp only [decide_eq_true_eq] at hq
    exact In.child m st (ch rfl) (fun w1 Fq gq mq => rest w1 Fq gq (box_ge st.inv hq) mq)
  · have m1 := m.step u1 st
    refine In.trans m ⟨st, v1, F1, u1⟩ (fun w1 F1 g1 m1 => ?_)
    have obj : ∀ {y : Res (Ptr × Heap)} {h0 : Heap} {w1 : Val} {F1 : List Ptr}, y = Heap.setKey E h0 p key .object → Good h0 (some p) w1 F1 → Mine X h0 F1 → ∀ {ll : Option Ptr},
        (do let (q, h) ← y; Res.ok (ll, some p, q, h)) = .ok (a, b, q, h1) → In X h0 F1 p h2 := by
      intro y h0 w1 F1 hy g1 m1 ll e
      subst hy
      obtain ⟨⟨q', h'⟩, e1, e⟩ := Res.bind_eq_ok.1 e
      cases e
      exact In.setKey g1 h5 m1 e1 (fun w2 Fq gq h6 mq => rest w2 Fq gq (h6 rfl) mq)
    have fromReset : ∀ {ll : Option Ptr}, (do let (q, h) ← Heap.setKey E (reset h0 p .object) p key .object; Res.ok (ll, some p, q, h)) = .ok (a, b, q, h1) → In X h0 F1 p h2 := by
      intro ll e
      exact In.trans m1 (In.mut (E := E) g1 h5 m1 (.reset .object) rfl) (fun w2 F2 g2 m2 => obj rfl g2 m2 e)
    split at e
    · split at e
      · exact fromReset e
      · cases e
        exact In.idx g1 h5 m1 (Given.owner g1 h5 m1) _ _ (fun w2 Fq gq h6 mq _ => rest w2 Fq gq (h6 rfl) mq)
    · exact obj rfl g1 m1 e
    · rw [if_neg (by simp [shared]; omega)] at e
      exact fromReset e

theorem forceLoop_in {E : Env} (t : VT) : ∀ (path : List Bytes) {h h' : Heap} {p : Ptr} {w : Val} {F : List Ptr} {ll la : Option Ptr} {prev : Bytes} {q : Ptr},
    Good h (some p) w F → 5 ≤ p → Mine X h F → forceLoop E t h ll la p prev path = .ok (q, h') → In X h F p h' := by
  intro path
  induction path with
  | nil => intro h h' p w F ll la prev q g h5 m e; simp only [forceLoop] at e; cases e; exact In.refl g
  | cons k path ih =>
    intro h h' p w F ll la prev q g h5 m e
    cases path with
    | nil => simp only [forceLoop] at e; exact In.setKey g h5 m e (fun _ _ gq _ _ => In.refl gq)
    | cons k2 path =>
      rw [forceLoop, Res.bind_eq_ok] at e
      obtain ⟨⟨a, b, c, h1⟩, e1, e2⟩ := e
      exact forceStep_in g h5 m e1 (fun w1 Fq gq h6 mq => ih gq h6 mq e2)

/-- `ForcePath` on any value. -/
theorem forcePath_in {E : Env} (g : Good h (some p) w F) (h5 : 5 ≤ p) (m : Mine X h F) {t : VT} {path : List Bytes} {q : Ptr} {h' : Heap}
    (e : forcePath E h p t path = .ok (q, h')) : In X h F p h' := forceLoop_in t path g h5 m e

end

end Dxs.Heap

/-! ## Go data -/

namespace Dxs.Reflect
open Dxs.Heap

section
variable {E : Env} {X : CId → Prop}

/-- The constants for booleans. -/
theorem bool_tree {h : Heap} (I : Inv h) (b : Bool) : ∃ w, Good h (some (if b then trueP else falseP)) w [] := by
  cases b
  · exact Heap.const_tree I (p := falseP) (by decide)
  · exact Heap.const_tree I (p := trueP) (by decide)

theorem boolKey_in {h : Heap} {p : Ptr} {w : Val} {F : List Ptr} (g : Good h (some p) w F) (h5 : 5 ≤ p) (name : Bytes) (b : Bool) :
    In X h F p (setKeyValue E h p name (some (if b then trueP else falseP))) := by
  obtain ⟨w1, gb⟩ := bool_tree g.inv b
  obtain ⟨v', F', u⟩ := setKeyValue_any E g h5 name gb (by simp)
  exact ⟨g.inv.setKeyValue_st E p name _, v', F', u⟩

theorem boolIdx_in {h : Heap} {p : Ptr} {w : Val} {F : List Ptr} (g : Good h (some p) w F) (h5 : 5 ≤ p) (i : Int) (b : Bool) :
    In X h F p (setIndexValue h p i (some (if b then trueP else falseP))) := by
  obtain ⟨w1, gb⟩ := bool_tree g.inv b
  obtain ⟨v', F', u⟩ := setIndexValue_any g h5 i gb (by simp)
  exact ⟨g.inv.setIndexValue_st p i _, v', F', u⟩

variable {h : Heap} {p : Ptr} {w : Val} {F : List Ptr} {c : Option CId}

theorem scKey_in (g : Good h (some p) w F) (h5 : 5 ≤ p) (m : Mine X h F) (a : Given X h c) (name : Bytes) (s : Sc) {h' : Heap}
    (e : scKey E h p name c s = .ok h') : In X h F p h' := by
  cases s with
  | bool b => simp only [scKey, Res.ok.injEq] at e; subst e; exact boolKey_in g h5 name b
  | int x | uint x | str x | f32 x | f64 x =>
    simp only [scKey] at e
    obtain ⟨⟨q, h1⟩, e1, e2⟩ := Res.bind_eq_ok.1 e
    simp only [Res.ok.injEq] at e2
    subst e2
    refine In.key g h5 m a e1 (fun w1 Fq gq h6 mq _ => ?_)
    first
      | exact In.mut (E := E) gq (h6 rfl) mq (.setInt x) rfl
      | exact In.mut (E := E) gq (h6 rfl) mq (.setString x) rfl
      | exact In.mut (E := E) gq (h6 rfl) mq (.setFloat x) rfl
      | exact In.mut (E := E) gq (h6 rfl) mq (.setDouble x) rfl

theorem rscKey_in (g : Good h (some p) w F) (h5 : 5 ≤ p) (m : Mine X h F) (a : Given X h c) (name : Bytes) (fld : Bool) (s : Sc) {h' : Heap}
    (e : rscKey E h p name c fld s = .ok h') : In X h F p h' := by
  cases s with
  | bool b => simp only [rscKey, Res.ok.injEq] at e; subst e; exact boolKey_in g h5 name b
  | uint x =>
    simp only [rscKey] at e
    obtain ⟨⟨q, h1⟩, e1, e2⟩ := Res.bind_eq_ok.1 e
    cases fld
    · simp only [Bool.false_eq_true, if_false, Res.ok.injEq] at e2
      subst e2
      exact In.key g h5 m a e1 (fun w1 Fq gq h6 mq _ => In.mut (E := E) gq (h6 rfl) mq (.setInt x) rfl)
    · simp at e2
  | int x | str x | f32 x | f64 x =>
    simp only [rscKey] at e
    obtain ⟨⟨q, h1⟩, e1, e2⟩ := Res.bind_eq_ok.1 e
    simp only [Res.ok.injEq] at e2
    subst e2
    refine In.key g h5 m a e1 (fun w1 Fq gq h6 mq _ => ?_)
    first
      | exact In.mut (E := E) gq (h6 rfl) mq (.setInt x) rfl
      | exact In.mut (E := E) gq (h6 rfl) mq (.setString x) rfl
      | exact In.mut (E := E) gq (h6 rfl) mq (.setFloat x) rfl
      | exact In.mut (E := E) gq (h6 rfl) mq (.setDouble x) rfl

theorem scIdx_in (E : Env) (g : Good h (some p) w F) (h5 : 5 ≤ p) (m : Mine X h F) (a : Given X h c) (i : Nat) (s : Sc) : In X h F p (scIdx h p i c s) := by
  cases s with
  | bool b => exact boolIdx_in g h5 i b
  | int x | uint x => exact In.idx g h5 m a i .int (fun w1 Fq gq h6 mq _ => In.mut (E := E) gq (h6 rfl) mq (.setInt x) rfl)
  | str x => exact In.idx g h5 m a i .string (fun w1 Fq gq h6 mq _ => In.mut (E := E) gq (h6 rfl) mq (.setString x) rfl)
  | f32 x => exact In.idx g h5 m a i .float (fun w1 Fq gq h6 mq _ => In.mut (E := E) gq (h6 rfl) mq (.setFloat x) rfl)
  | f64 x => exact In.idx g h5 m a i .double (fun w1 Fq gq h6 mq _ => In.mut (E := E) gq (h6 rfl) mq (.setDouble x) rfl)

end

variable {E : Env} {X : CId → Prop}

mutual
theorem setKeyvalue_in (d : Go) {h : Heap} {p : Ptr} {w : Val} {F : List Ptr} {c : Option CId} (g : Good h (some p) w F) (h5 : 5 ≤ p) (m : Mine X h F) (a : Given X h c)
    (name : Bytes) {h' : Heap} (e : setKeyvalue E h p name c d = .ok h') : In X h F p h' := by
  cases d with
  | nil | named _ | other => simp only [setKeyvalue, Res.ok.injEq] at e; subst e; exact In.refl g
  | sc s => simp only [setKeyvalue] at e; exact scKey_in g h5 m a name s e
  | time x =>
    simp only [setKeyvalue] at e
    obtain ⟨⟨q, h1⟩, e1, e2⟩ := Res.bind_eq_ok.1 e
    simp only [Res.ok.injEq] at e2
    subst e2
    exact In.key g h5 m a e1 (fun w1 Fq gq h6 mq _ => In.mut (E := E) gq (h6 rfl) mq (.setDouble x) rfl)
  | bytes b =>
    simp only [setKeyvalue] at e
    obtain ⟨⟨q, h1⟩, e1, e2⟩ := Res.bind_eq_ok.1 e
    simp only [Res.ok.injEq] at e2
    subst e2
    exact In.key g h5 m a e1 (fun w1 Fq gq h6 mq _ => In.mut (E := E) gq (h6 rfl) mq (.setBinary b) rfl)
  | map kvs =>
    simp only [setKeyvalue] at e
    obtain ⟨⟨q, h1⟩, e1, e2⟩ := Res.bind_eq_ok.1 e
    exact In.key g h5 m a e1 (fun w1 Fq gq h6 mq aq => setKeys_in kvs gq (h6 rfl) mq aq e2)
  | slice xs =>
    simp only [setKeyvalue] at e
    obtain ⟨⟨q, h1⟩, e1, e2⟩ := Res.bind_eq_ok.1 e
    exact In.key g h5 m a e1 (fun w1 Fq gq h6 mq aq => setItems_in xs gq (h6 rfl) mq aq 0 e2)
  | rmap kvs =>
    cases kvs with
    | nil => simp only [setKeyvalue, Res.ok.injEq] at e; subst e; exact In.refl g
    | cons kv kvs =>
      simp only [setKeyvalue] at e
      obtain ⟨⟨q, h1⟩, e1, e2⟩ := Res.bind_eq_ok.1 e
      exact In.key g h5 m a e1 (fun w1 Fq gq h6 mq aq => setFields_in (kv :: kvs) gq (h6 rfl) mq aq false e2)
  | rslice xs =>
    simp only [setKeyvalue] at e
    obtain ⟨⟨q, h1⟩, e1, e2⟩ := Res.bind_eq_ok.1 e
    exact In.key g h5 m a e1 (fun w1 Fq gq h6 mq aq => setRItems_in xs gq (h6 rfl) mq aq 0 e2)
  | struct fs =>
    simp only [setKeyvalue] at e
    obtain ⟨⟨q, h1⟩, e1, e2⟩ := Res.bind_eq_ok.1 e
    exact In.key g h5 m a e1 (fun w1 Fq gq h6 mq aq => setFields_in fs gq (h6 rfl) mq aq true e2)
  | nilPtr b =>
    cases b
    · simp only [setKeyvalue, Bool.false_eq_true, if_false, Res.ok.injEq] at e; subst e; exact In.refl g
    · simp [setKeyvalue] at e
theorem setIndexvalue_in (d : Go) {h : Heap} {p : Ptr} {w : Val} {F : List Ptr} {c : Option CId} (g : Good h (some p) w F) (h5 : 5 ≤ p) (m : Mine X h F) (a : Given X h c)
    (i : Nat) {h' : Heap} (e : setIndexvalue E h p i c d = .ok h') : In X h F p h' := by
  cases d with
  | nil | named _ | other => simp only [setIndexvalue, Res.ok.injEq] at e; subst e; exact In.refl g
  | sc s => simp only [setIndexvalue, Res.ok.injEq] at e; subst e; exact scIdx_in E g h5 m a i s
  | time x =>
    simp only [setIndexvalue, Res.ok.injEq] at e; subst e
    exact In.idx g h5 m a i .dateTime (fun w1 Fq gq h6 mq _ => In.mut (E := E) gq (h6 rfl) mq (.setDouble x) rfl)
  | bytes b =>
    simp only [setIndexvalue, Res.ok.injEq] at e; subst e
    exact In.idx g h5 m a i .binary (fun w1 Fq gq h6 mq _ => In.mut (E := E) gq (h6 rfl) mq (.setBinary b) rfl)
  | map kvs => simp only [setIndexvalue] at e; exact In.idx g h5 m a i .object (fun w1 Fq gq h6 mq aq => setKeys_in kvs gq (h6 rfl) mq aq e)
  | slice xs => simp only [setIndexvalue] at e; exact In.idx g h5 m a i .array (fun w1 Fq gq h6 mq aq => setItems_in xs gq (h6 rfl) mq aq 0 e)
  | rmap kvs =>
    cases kvs with
    | nil => simp only [setIndexvalue, Res.ok.injEq] at e; subst e; exact In.refl g
    | cons kv kvs => simp only [setIndexvalue] at e; exact In.idx g h5 m a i .object (fun w1 Fq gq h6 mq aq => setFields_in (kv :: kvs) gq (h6 rfl) mq aq false e)
  | rslice xs => simp only [setIndexvalue] at e; exact In.idx g h5 m a i .array (fun w1 Fq gq h6 mq aq => setRItems_in xs gq (h6 rfl) mq aq 0 e)
  | struct fs => simp only [setIndexvalue] at e; exact In.idx g h5 m a i .object (fun w1 Fq gq h6 mq aq => setFields_in fs gq (h6 rfl) mq aq true e)
  | nilPtr b => simp [setIndexvalue] at e
theorem setKeys_in (kvs : List (Bytes × Go)) {h : Heap} {p : Ptr} {w : Val} {F : List Ptr} {c : Option CId} (g : Good h (some p) w F) (h5 : 5 ≤ p) (m : Mine X h F) (a : Given X h c)
    {h' : Heap} (e : setKeys E h p c kvs = .ok h') : In X h F p h' := by
  match kvs with
  | [] => simp only [setKeys, Res.ok.injEq] at e; subst e; exact In.refl g
  | (k, d) :: kvs =>
    simp only [setKeys] at e
    obtain ⟨h1, e1, e2⟩ := Res.bind_eq_ok.1 e
    have s1 := setKeyvalue_in d g h5 m a k e1
    exact In.trans m s1 (fun w1 F1 g1 m1 => setKeys_in kvs g1 h5 m1 (a.step s1.1) e2)
theorem setItems_in (xs : List Go) {h : Heap} {p : Ptr} {w : Val} {F : List Ptr} {c : Option CId} (g : Good h (some p) w F) (h5 : 5 ≤ p) (m : Mine X h F) (a : Given X h c)
    (i : Nat) {h' : Heap} (e : setItems E h p c i xs = .ok h') : In X h F p h' := by
  match xs with
  | [] => simp only [setItems, Res.ok.injEq] at e; subst e; exact In.refl g
  | d :: xs =>
    simp only [setItems] at e
    obtain ⟨h1, e1, e2⟩ := Res.bind_eq_ok.1 e
    have s1 := setIndexvalue_in d g h5 m a i e1
    exact In.trans m s1 (fun w1 F1 g1 m1 => setItems_in xs g1 h5 m1 (a.step s1.1) (i + 1) e2)
theorem setRItems_in (xs : List Go) {h : Heap} {p : Ptr} {w : Val} {F : List Ptr} {c : Option CId} (g : Good h (some p) w F) (h5 : 5 ≤ p) (m : Mine X h F) (a : Given X h c)
    (i : Nat) {h' : Heap} (e : setRItems E h p c i xs = .ok h') : In X h F p h' := by
  match xs with
  | [] => simp only [setRItems, Res.ok.injEq] at e; subst e; exact In.refl g
  | d :: xs =>
    rw [setRItems_cons] at e
    obtain ⟨h1, e1, e2⟩ := Res.bind_eq_ok.1 e
    have s1 : In X h F p h1 := by
      unfold rItem at e1
      split at e1
      · simp only [Res.ok.injEq] at e1
        subst e1
        exact In.idx g h5 m a i .null (fun w1 Fq gq _ _ _ => In.refl gq)
      · exact setIndexvalue_in d g h5 m a i e1
    exact In.trans m s1 (fun w1 F1 g1 m1 => setRItems_in xs g1 h5 m1 (a.step s1.1) (i + 1) e2)
theorem setFields_in (fs : List (Bytes × Go)) {h : Heap} {p : Ptr} {w : Val} {F : List Ptr} {c : Option CId} (g : Good h (some p) w F) (h5 : 5 ≤ p) (m : Mine X h F) (a : Given X h c)
    (fld : Bool) {h' : Heap} (e : setFields E h p c fld fs = .ok h') : In X h F p h' := by
  match fs with
  | [] => simp only [setFields, Res.ok.injEq] at e; subst e; exact In.refl g
  | (k, d) :: fs =>
    rw [setFields_cons] at e
    obtain ⟨h1, e1, e2⟩ := Res.bind_eq_ok.1 e
    have s1 : In X h F p h1 := by
      unfold field at e1
      split at e1
      · exact rscKey_in g h5 m a k fld _ e1
      · exact rscKey_in g h5 m a k fld _ e1
      · simp at e1
      · exact setKeyvalue_in d g h5 m a k e1
    exact In.trans m s1 (fun w1 F1 g1 m1 => setFields_in fs g1 h5 m1 (a.step s1.1) fld e2)
end

/-- `SetValue` on any value. -/
theorem setValue_in {h : Heap} {p : Ptr} {w : Val} {F : List Ptr} (g : Good h (some p) w F) (h5 : 5 ≤ p) (m : Mine X h F) (d : Go) {h' : Heap}
    (e : setValue E h p d = .ok h') : In X h F p h' := by
  have re := fun t => In.mut (E := E) g h5 m (.reset t) rfl
  unfold setValue at e
  rw [if_neg (by simp [shared]; omega)] at e
  split at e
  all_goals first
    | (simp only [Res.ok.injEq] at e; subst e; exact In.refl g)
    | (simp only [Res.ok.injEq] at e; subst e; first
        | exact In.mut (E := E) g h5 m (.setInt _) rfl
        | exact In.mut (E := E) g h5 m (.setString _) rfl
        | exact In.mut (E := E) g h5 m (.setBool _) rfl
        | exact In.mut (E := E) g h5 m (.setFloat _) rfl
        | exact In.mut (E := E) g h5 m (.setDouble _) rfl
        | exact In.mut (E := E) g h5 m (.setBinary _) rfl)
    | exact In.trans m (re .object) (fun w1 F1 g1 m1 => setKeys_in _ g1 h5 m1 (Given.owner g1 h5 m1) e)
    | exact In.trans m (re .object) (fun w1 F1 g1 m1 => setFields_in _ g1 h5 m1 (Given.owner g1 h5 m1) _ e)
    | exact In.trans m (re .array) (fun w1 F1 g1 m1 => setItems_in _ g1 h5 m1 (Given.owner g1 h5 m1) 0 e)
    | exact In.trans m (re .array) (fun w1 F1 g1 m1 => setRItems_in _ g1 h5 m1 (Given.owner g1 h5 m1) 0 e)
    | (split at e
       · cases e
       · simp only [Res.ok.injEq] at e; subst e; exact In.refl g)

end Dxs.Reflect
