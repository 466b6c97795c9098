import Verif.Load.BsonSim
import Verif.Load.Fill

/-!
# Loading any BSON into any value

`LoadFromBson` keeps the value a proper tree whatever the document is and whatever the value was, also when it fails; it changes nothing
but the value and memory that was available, and uses no caches but those of the value.
-/

namespace Dxs.Heap
open Bson (uint32 uint64 at_ sliceTo slice targetType)

/-- All caches that the nodes `F` name, and all future ones, may be used. -/
structure Mine (X : CId → Prop) (h : Heap) (F : List Ptr) : Prop where
  own : Own h
  owner : ∀ r ∈ F, ∀ d, (h.mem r).owner = some d → X d
  new : ∀ d, h.nextC ≤ d → X d

theorem Mine.sub {X : CId → Prop} {h : Heap} {F G : List Ptr} (m : Mine X h F) (hs : ∀ r ∈ G, r ∈ F) : Mine X h G :=
  ⟨m.own, fun r hr => m.owner r (hs r hr), m.new⟩

theorem Mine.step {X : CId → Prop} {h h' : Heap} {F F' : List Ptr} {a : Option Ptr} {v : Val} (m : Mine X h F) (u : Upd h F h' a v F') (s : Step X h h') :
    Mine X h' F' := by
  refine ⟨s.own m.own, fun r hr d hd => ?_, fun d hd => m.new d (Nat.le_trans s.nextC hd)⟩
  rcases s.owner m.own r with h1 | h1 | ⟨e, h1, h2⟩
  · rw [h1] at hd
    rcases u.sub r hr with h3 | h3 | h3
    · exact m.owner r h3 d hd
    · cases h3
    · rcases h3 with h3 | ⟨c, hc, h3⟩
      · rw [m.own.fresh r h3] at hd; cases hd
      · rcases m.own.slot c hc r (List.mem_of_mem_drop h3) with h4 | h4
        · rw [h4] at hd; cases hd
        · rw [h4] at hd
          have := Option.some.inj hd; subst this
          refine Classical.byContradiction (fun hX => ?_)
          refine u.good.live r hr (Or.inr ⟨c, Nat.lt_of_lt_of_le hc s.nextC, ?_⟩)
          rw [s.caches c hc hX]; exact h3
  · rw [h1] at hd; cases hd
  · rw [h1] at hd
    have := Option.some.inj hd; subst this
    rcases h2 with h2 | h2
    · exact h2
    · exact m.new e h2

/-- The value `p` stays a proper tree, also after an error. -/
def BFill {α : Type} (X : CId → Prop) (h : Heap) (F : List Ptr) (p : Ptr) : Out α → Prop
  | .ok _ h' => Step X h h' ∧ Moves h F p h'
  | .err _ h' => Step X h h' ∧ Moves h F p h'
  | _ => True

section
variable {α β : Type} {X : CId → Prop} {h : Heap} {p : Ptr} {F : List Ptr} {w : Val}

theorem BFill.same (g : Good h (some p) w F) (a : α) : BFill X h F p (.ok a h) := ⟨Step.refl g.inv, w, F, g.upd_refl⟩

theorem BFill.err (g : Good h (some p) w F) (e : Err) : BFill X h F p (.err e h : Out α) := ⟨Step.refl g.inv, w, F, g.upd_refl⟩

theorem BFill.lift (g : Good h (some p) w F) (r : Res α) {f : α → Heap → Out β} (hf : ∀ a, BFill X h F p (f a h)) : BFill X h F p ((Out.lift r h).bind f) := by
  cases r with
  | ok a => exact hf a
  | err e => exact BFill.err g e
  | panic => trivial
  | loop => trivial

theorem BFill.ite {P : Prop} [Decidable P] {x y : Out α} (a : P → BFill X h F p x) (b : ¬P → BFill X h F p y) : BFill X h F p (if P then x else y) := by
  split
  · exact a ‹_›
  · exact b ‹_›

theorem BFill.after {h1 : Heap} {F1 : List Ptr} {v1 : Val} (s : Step X h h1) (u : Upd h F h1 (some p) v1 F1) {y : Out α} (l : BFill X h1 F1 p y) : BFill X h F p y := by
  cases y with
  | ok a h' => obtain ⟨s', v', F', u'⟩ := l; exact ⟨s.trans s', v', F', UpdX.trans u u'⟩
  | err e h' => obtain ⟨s', v', F', u'⟩ := l; exact ⟨s.trans s', v', F', UpdX.trans u u'⟩
  | panic => trivial
  | loop => trivial

/-- Then something follows. -/
theorem BFill.bind {S : Ptr → Prop} {y : Out α} (l : BFill X h F p y) (k : HoldS S h y) {f : α → Heap → Out β}
    (hf : ∀ a h1 v1 F1 S1, Step X h h1 → Upd h F h1 (some p) v1 F1 → Solid S1 h1 → (∀ x, S x → S1 x) → BFill X h1 F1 p (f a h1)) : BFill X h F p (y.bind f) := by
  match y, l, k with
  | .ok a h1, ⟨s, v1, F1, u⟩, ⟨_, S1, s1, hs⟩ => exact BFill.after s u (hf a h1 v1 F1 S1 s u s1 hs)
  | .err _ _, l, _ => exact l
  | .panic, _, _ => trivial
  | .loop, _, _ => trivial

/-- An inner value is loaded. -/
theorem BFill.inside {q : Ptr} {Fq : List Ptr} (hu : ∀ h2 w' Fq', Upd h Fq h2 (some q) w' Fq' → Moves h F p h2) {y : Out α} (l : BFill X h Fq q y) : BFill X h F p y := by
  cases y with
  | ok a h' => obtain ⟨s, v', F', u⟩ := l; exact ⟨s, hu h' v' F' u⟩
  | err e h' => obtain ⟨s, v', F', u⟩ := l; exact ⟨s, hu h' v' F' u⟩
  | panic => trivial
  | loop => trivial

theorem BFill.done {h' : Heap} (s : Step X h h') (m : Moves h F p h') (a : α) : BFill X h F p (.ok a h') := ⟨s, m⟩

end

/-! ## Scalars -/

section
variable {X : CId → Prop} {h : Heap} {q : Ptr} {w : Val} {F : List Ptr}

/-- One write of a scalar. -/
theorem leaf_fill {n : Node} {x : Val} (g : Good h (some q) w F) (h5 : 5 ≤ q) (ho : n.owner = (h.mem q).owner) (hw : leafOf n = some x) (k : Nat) :
    BFill X h F q (.ok k (h.set q n)) :=
  ⟨g.inv.set_st q n (fun h => by omega) ho, Moves.of (write_leaf g rfl h5 ho hw)⟩

theorem mut_fill (E : Env) (g : Good h (some q) w F) (h5 : 5 ≤ q) (m : Mut) {h' : Heap} (hm : ∀ d, (h.mem q).owner = some d → X d)
    (e : m.run E h q = .ok h') (k : Nat) : BFill X h F q (.ok k h') :=
  ⟨Mut.step g.inv m hm e, Mut.moves g h5 m e⟩

/-- A scalar is written first. -/
theorem first_fill {n : Node} {x : Val} (g : Good h (some q) w F) (h5 : 5 ≤ q) (ho : n.owner = (h.mem q).owner) (hw : leafOf n = some x) {y : Out Nat}
    (l : ∀ F' w', Good (h.set q n) (some q) w' F' → ((h.set q n).mem q).owner = (h.mem q).owner → BFill X (h.set q n) F' q y) : BFill X h F q y := by
  have u := write_leaf g rfl h5 ho hw
  exact BFill.after (g.inv.set_st q n (fun h => by omega) ho) u (l _ _ u.good (by rw [set_mem_same]; exact ho))

theorem bsonBinaryH_fill (E : Env) (g : Good h (some q) w F) (h5 : 5 ≤ q) (hm : ∀ d, (h.mem q).owner = some d → X d) (hid b : Bytes) :
    BFill X h F q (bsonBinaryH hid b q h) := by
  unfold bsonBinaryH
  dsimp only
  refine first_fill (n := { h.mem q with dt := .exBinary, ext := 5 }) (x := .exbin 5 (h.mem q).bin) g h5 rfl (by simp [leafOf]) (fun F1 w1 g1 ho => ?_)
  change BFill X _ F1 q ((Out.lift (uint32 hid b) (h.set q { h.mem q with dt := .exBinary, ext := 5 })).bind _)
  generalize h.set q { h.mem q with dt := .exBinary, ext := 5 } = h1 at g1 ho ⊢
  rw [← ho] at hm
  refine BFill.lift g1 _ (fun n => BFill.lift g1 _ (fun b => BFill.lift g1 _ (fun sub => BFill.ite (fun _ => ?_) (fun _ => ?_))))
  · refine BFill.lift g1 _ (fun b => BFill.lift g1 _ (fun n => BFill.lift g1 _ (fun b => BFill.ite (fun _ => BFill.err g1 _) (fun _ => ?_))))
    refine first_fill (n := { h1.mem q with dt := .binary, ext := 0 }) (x := .bin 0 (h1.mem q).bin) g1 h5 rfl (by simp [leafOf]) (fun F2 w2 g2 ho2 => ?_)
    rw [← ho2] at hm
    exact BFill.lift g2 _ (fun d => mut_fill E g2 h5 (.setBinary d) hm rfl _)
  · exact BFill.lift g1 _ (fun d => mut_fill E g1 h5 (.setBinary d) hm rfl _)

theorem bsonSimpleH_fill (E : Env) (g : Good h (some q) w F) (h5 : 5 ≤ q) (hm : ∀ d, (h.mem q).owner = some d → X d) (hid : Bytes) (ty : UInt8) (b : Bytes) :
    BFill X h F q (bsonSimpleH E hid ty b q h) := by
  have bin : ∀ (x : UInt8) (d : Bytes) (k : Nat), BFill X h F q (.ok k (setBinary (h.upd q (fun n => { n with dt := .binary, ext := x })) q d)) := by
    intro x d k
    refine first_fill (n := { h.mem q with dt := .binary, ext := x }) (x := .bin x (h.mem q).bin) g h5 rfl (by simp [leafOf]) (fun F2 w2 g2 ho2 => ?_)
    rw [← ho2] at hm
    exact mut_fill E g2 h5 (.setBinary d) hm rfl _
  unfold bsonSimpleH
  refine BFill.ite (fun _ => BFill.lift g _ (fun w => mut_fill E g h5 (.setDouble _) hm rfl _)) (fun _ => ?_)
  refine BFill.ite (fun _ => BFill.lift g _ (fun n => BFill.lift g _ (fun s => mut_fill E g h5 (.setString _) hm rfl _))) (fun _ => ?_)
  refine BFill.ite (fun _ => bsonBinaryH_fill E g h5 hm hid b) (fun _ => ?_)
  refine BFill.ite (fun _ => BFill.lift g _ (fun d => bin 7 d _)) (fun _ => ?_)
  refine BFill.ite (fun _ => BFill.lift g _ (fun x => ?_)) (fun _ => ?_)
  · by_cases hx : (x == 1) = true
    · simp only [hx, if_true]
      exact leaf_fill (x := .tru) g h5 (by rfl) (by simp [leafOf]) _
    · simp only [hx]
      exact leaf_fill (x := .fls) g h5 (by rfl) (by simp [leafOf]) _
  refine BFill.ite (fun _ => BFill.lift g _ (fun w => mut_fill E g h5 (.setTime _) hm rfl _)) (fun _ => ?_)
  refine BFill.ite (fun _ => BFill.lift g _ (fun w => mut_fill E g h5 (.setInt _) hm rfl _)) (fun _ => ?_)
  refine BFill.ite (fun _ => BFill.lift g _ (fun x => leaf_fill (n := { h.mem q with ext := 17, dt := .int, cell := BitVec.ofNat 64 x }) (x := .int 17 (BitVec.ofNat 64 x)) g h5 rfl (by simp [leafOf]) _)) (fun _ => ?_)
  refine BFill.ite (fun _ => BFill.lift g _ (fun w => mut_fill E g h5 (.setInt _) hm rfl _)) (fun _ => ?_)
  refine BFill.ite (fun _ => BFill.lift g _ (fun d => bin 19 d _)) (fun _ => ?_)
  exact BFill.same g _

end

/-! ## Members and elements -/

/-- The child that `SetKeyCached` and `SetIndexCached` return. -/
structure Child (h : Heap) (F : List Ptr) (p q : Ptr) (h1 : Heap) : Prop where
  child : ∃ v1 F1 w Fq, Upd h F h1 (some p) v1 F1 ∧ Good h1 (some q) w Fq ∧ (∀ r ∈ Fq, r ∈ F1) ∧
    ∀ h2 w' Fq', Upd h1 Fq h2 (some q) w' Fq' → Moves h1 F1 p h2
  kid : some q ∈ Node.kids (h1.mem p)

section
variable {h : Heap} {p : Ptr} {v : Val} {F : List Ptr}

theorem Child.of {h1 : Heap} {v1 w : Val} {F1 : List Ptr} {i : Nat} {q : Ptr} (u : Upd h F h1 (some p) v1 F1) (hk : (Val.kids v1)[i]? = some w)
    (hq : (Node.kids (h1.mem p))[i]? = some (some q)) : Child h F p q h1 := by
  obtain ⟨b, Fq, hb, gq, hsub, hupd⟩ := u.good.kid hk
  rw [hq] at hb
  cases hb
  refine ⟨⟨v1, F1, w, Fq, u, gq, hsub, fun h2 w' Fq' u2 => ?_⟩, List.mem_of_getElem? hq⟩
  obtain ⟨F', u'⟩ := hupd [] h2 w' Fq' u2 (by simp)
  exact ⟨_, F', u'⟩

theorem Child.after {h0 : Heap} {F0 : List Ptr} {v0 : Val} {q : Ptr} {h1 : Heap} (a : Child h0 F0 p q h1) (u : Upd h F h0 (some p) v0 F0) : Child h F p q h1 := by
  obtain ⟨v1, F1, w, Fq, u1, gq, hs, hu⟩ := a.child
  exact ⟨⟨v1, F1, w, Fq, UpdX.trans u u1, gq, hs, hu⟩, a.kid⟩

theorem setIndexCached_child (g : Good h (some p) v F) (h5 : 5 ≤ p) (idx : Int) (t : VT) (c : Option CId) (hc : ∀ d, c = some d → d < h.nextC) :
    Child h F p (setIndexCached h p idx t c).1 (setIndexCached h p idx t c).2 := by
  obtain ⟨xs, F0, u⟩ := toArr g h5
  obtain ⟨hd, -⟩ := arr_first h h5
  have hn : (if (h.mem p).dt = .array then h else reset h p .array).nextC = h.nextC := by
    split
    · rfl
    · exact (Same.reset h p .array).nextC
  have e : setIndexCached h p idx t c = setIndexCached (if (h.mem p).dt = .array then h else reset h p .array) p idx t c := by
    unfold setIndexCached
    simp only [hd, if_true]
  rw [e]
  rw [← hn] at hc
  generalize (if (h.mem p).dt = .array then h else reset h p .array) = h0 at u hc
  obtain ⟨w, F1, u1, hkid, -, -⟩ := setIndexCached_arr u.good idx t c hc
  exact (Child.of u1 (kids_arrPut xs idx w) hkid).after u

theorem setKeyCached_child (E : Env) (g : Good h (some p) v F) (h5 : 5 ≤ p) (k : Bytes) (t : VT) (c : Option CId) (hc : ∀ d, c = some d → d < h.nextC)
    {q : Ptr} {h1 : Heap} (e : setKeyCached E h p k t c = .ok (q, h1)) : Child h F p q h1 := by
  by_cases ha : (h.mem p).dt = .array ∧ strIdx E k ≠ -1
  · have e' : setKeyCached E h p k t c = .ok (setIndexCached h p (strIdx E k) t (h.mem p).owner) := by
      unfold setKeyCached setIndex; rw [if_pos ha]
    rw [e', Res.ok.injEq] at e
    have := setIndexCached_child g h5 (strIdx E k) t (h.mem p).owner (fun d => g.inv.owner p d)
    rw [e] at this; exact this
  · obtain ⟨ku, kvs, F0, u⟩ := toObj g h5
    obtain ⟨hd, -⟩ := obj_first h h5
    have hn : (if (h.mem p).dt = .object then h else reset h p .object).nextC = h.nextC := by
      split
      · rfl
      · exact (Same.reset h p .object).nextC
    have e' : setKeyCached E h p k t c = setKeyCached E (if (h.mem p).dt = .object then h else reset h p .object) p k t c := by
      by_cases hb : (h.mem p).dt = .object
      · rw [if_pos hb]
      · rw [if_neg hb] at hd ⊢
        exact setKeyCached_reset E h5 k t c hb ha
    rw [e'] at e
    rw [← hn] at hc
    generalize (if (h.mem p).dt = .object then h else reset h p .object) = h0 at u e hc
    by_cases hnil : objOld E ku kvs k = some .nil
    · rw [setKeyCached_nil E u.good k t _ hnil] at e; cases e
    · obtain ⟨q', h1', w, F1, he, u1, hkid, -, -⟩ := setKeyCached_obj E u.good k t c hc hnil
      rw [he] at e
      cases e
      exact (Child.of u1 (kids_objPut E ku kvs k w) hkid).after u

end

/-! ## Documents -/

/-- All decoders of one level of fuel. -/
structure BFills (E : Env) (hid : Bytes) (X : CId → Prop) (c : Option CId) (fuel : Nat) : Prop where
  doc : ∀ S h b p w F, Good h (some p) w F → 5 ≤ p → Mine X h F → Solid S h → (∀ d, c = some d → d < h.nextC) → S p → BFill X h F p (bsonDocH E hid c fuel b p h)
  docLoop : ∀ S h b l i p w F, Good h (some p) w F → 5 ≤ p → Mine X h F → Solid S h → (∀ d, c = some d → d < h.nextC) → S p →
    BFill X h F p (bsonDocLoopH E hid c fuel b l i p h)
  elem : ∀ S h ty b p w F, Good h (some p) w F → 5 ≤ p → Mine X h F → Solid S h → (∀ d, c = some d → d < h.nextC) → S p → BFill X h F p (bsonElemH E hid c fuel ty b p h)
  arr : ∀ S h b p w F, Good h (some p) w F → 5 ≤ p → Mine X h F → Solid S h → (∀ d, c = some d → d < h.nextC) → S p → BFill X h F p (bsonArrH E hid c fuel b p h)
  arrLoop : ∀ S h b l i p w F, Good h (some p) w F → 5 ≤ p → Mine X h F → Solid S h → (∀ d, c = some d → d < h.nextC) → S p →
    BFill X h F p (bsonArrLoopH E hid c fuel b l i p h)

/-- An element, then the rest of the loop. -/
theorem BFill.elem {X : CId → Prop} {S S1 : Ptr → Prop} {h h1 : Heap} {F : List Ptr} {p q : Ptr} (m : Mine X h F) (st : Step X h h1) (ch : Child h F p q h1)
    {y : Out Nat} (hy : ∀ w Fq, Good h1 (some q) w Fq → Mine X h1 Fq → BFill X h1 Fq q y) (k : HoldS S1 h1 y) (hS : ∀ x, S x → S1 x) {f : Nat → Heap → Out Unit}
    (hf : ∀ n h2 w2 F2 S2, Step X h h2 → Good h2 (some p) w2 F2 → Mine X h2 F2 → Solid S2 h2 → (∀ x, S x → S2 x) → BFill X h2 F2 p (f n h2)) : BFill X h F p (y.bind f) := by
  obtain ⟨v1, F1, w, Fq, u1, gq, hs, hu⟩ := ch.child
  have m1 := m.step u1 st
  refine BFill.after st u1 (BFill.bind (BFill.inside hu (hy w Fq gq (m1.sub hs))) k ?_)
  intro n h2 v2 F2 S2 st2 u2 s2 hS2
  exact hf n h2 v2 F2 S2 (st.trans st2) u2.good (m1.step u2 st2) s2 (fun x hx => hS2 x (hS x hx))

theorem bfills (E : Env) (hid : Bytes) (X : CId → Prop) (c : Option CId) (hX : ∀ d, c = some d → X d) : ∀ fuel, BFills E hid X c fuel := by
  intro fuel
  induction fuel with
  | zero =>
    refine ⟨?_, ?_, ?_, ?_, ?_⟩ <;> intros <;> simp [bsonDocH, bsonDocLoopH, bsonElemH, bsonArrH, bsonArrLoopH, BFill]
  | succ fuel ih =>
    have unit : ∀ {h : Heap} {F : List Ptr} {p : Ptr} {y : Out Unit} (n : Nat), BFill X h F p y → BFill X h F p (y.bind fun _ h => .ok n h) := by
      intro h F p y n l
      cases y with
      | ok a h' => exact l
      | err e h' => exact l
      | panic => trivial
      | loop => trivial
    refine ⟨?_, ?_, ?_, ?_, ?_⟩
    · intro S h b p w F g h5 m s hc hp
      rw [bsonDocH]
      refine BFill.ite (fun _ => BFill.err g _) (fun _ => BFill.lift g _ (fun l => BFill.ite (fun _ => BFill.err g _) (fun _ => ?_)))
      exact unit l (ih.docLoop S h b l 4 p w F g h5 m s hc hp)
    · intro S h b l i p w F g h5 m s hc hp
      rw [bsonDocLoopH]
      refine BFill.ite (fun _ => BFill.lift g _ (fun ty => ?_)) (fun _ => BFill.same g _)
      split
      · exact BFill.err g _
      · rename_i k _
        have hpF := rep_mem g.rep h5
        cases e : setKeyCached E h p ((b.drop (i + 1)).take k) (targetType ty) c with
        | ok r =>
          obtain ⟨q, h1⟩ := r
          obtain ⟨S1, f⟩ := s.setKeyCached g.inv E hp _ _ c hc e
          have st := g.inv.setKeyCached_st (X := X) E p _ _ c hc hX (m.owner p hpF) e
          have hc1 : ∀ d, c = some d → d < h1.nextC := fun d e => Nat.lt_of_lt_of_le (hc d e) st.nextC
          refine BFill.elem m st (setKeyCached_child E g h5 _ _ c hc e) (fun w Fq gq mq => ih.elem S1 h1 ty _ q w Fq gq f.ge mq f.solid hc1 f.mem)
            ((bkeeps E hid c fuel).elem S1 h1 ty _ q st.inv f.solid hc1 f.mem f.ge) f.le (fun n h2 w2 F2 S2 st2 g2 m2 s2 hS2 => ?_)
          exact BFill.ite (fun _ => BFill.same g2 _)
            (fun _ => ih.docLoop S2 h2 b l _ p w2 F2 g2 h5 m2 s2 (fun d e => Nat.lt_of_lt_of_le (hc d e) st2.nextC) (hS2 p hp))
        | err _ => trivial
        | panic => trivial
        | loop => trivial
    · intro S h ty b p w F g h5 m s hc hp
      rw [bsonElemH]
      exact BFill.ite (fun _ => ih.arr S h b p w F g h5 m s hc hp) (fun _ => BFill.ite (fun _ => ih.doc S h b p w F g h5 m s hc hp)
        (fun _ => bsonSimpleH_fill E g h5 (m.owner p (rep_mem g.rep h5)) hid ty b))
    · intro S h b p w F g h5 m s hc hp
      rw [bsonArrH]
      refine BFill.lift g _ (fun l => BFill.ite (fun _ => BFill.err g _) (fun _ => ?_))
      exact unit l (ih.arrLoop S h b l 4 p w F g h5 m s hc hp)
    · intro S h b l i p w F g h5 m s hc hp
      rw [bsonArrLoopH]
      refine BFill.ite (fun _ => BFill.lift g _ (fun ty => ?_)) (fun _ => BFill.same g _)
      split
      · exact BFill.err g _
      · rename_i k _
        dsimp only
        refine BFill.ite (fun _ => BFill.err g _) (fun _ => ?_)
        generalize ((E.strToInt ((b.drop (i + 1)).take k)).map BitVec.toInt).getD (-1) = idx
        obtain ⟨S1, f⟩ := s.setIndexCached g.inv hp h5 idx (targetType ty) c hc
        have st := g.inv.setIndexCached_st (X := X) p idx (targetType ty) c hc hX
        have ch := setIndexCached_child g h5 idx (targetType ty) c hc
        generalize setIndexCached h p idx (targetType ty) c = r at f st ch
        have hc1 : ∀ d, c = some d → d < r.2.nextC := fun d e => Nat.lt_of_lt_of_le (hc d e) st.nextC
        refine BFill.elem m st ch (fun w Fq gq mq => ih.elem S1 r.2 ty _ r.1 w Fq gq f.ge mq f.solid hc1 f.mem)
          ((bkeeps E hid c fuel).elem S1 r.2 ty _ r.1 st.inv f.solid hc1 f.mem f.ge) f.le (fun n h2 w2 F2 S2 st2 g2 m2 s2 hS2 => ?_)
        exact BFill.ite (fun _ => BFill.same g2 _)
          (fun _ => ih.arrLoop S2 h2 b l _ p w2 F2 g2 h5 m2 s2 (fun d e => Nat.lt_of_lt_of_le (hc d e) st2.nextC) (hS2 p hp))

end Dxs.Heap
