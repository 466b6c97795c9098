import Verif.Tree.Ask
import Verif.Heap.EqualKeep

/-!
# Programs with output, on trees
-/

namespace Dxs.Heap

/-- A statement: the trees before, what is printed, the trees afterwards. -/
def OCmd.means {τ : Type} (E : Env) (C : Clock τ) (T : Trees) : OCmd τ → List (Ans τ) → Trees → Prop
  | .run c, o, T' => o = [] ∧ c.means E T T'
  | .ask i π a, o, T' => ∃ v x, T.walk i π = .ok v ∧ (a.onTree E C v).1 = .ok x ∧ o = [x] ∧ T' = T.put i (Val.subst (T i) π (a.onTree E C v).2)
  | .same i π j ρ _, o, T' => ∃ v w, T.walk i π = .ok v ∧ T.walk j ρ = .ok w ∧
      if i ≠ j ∨ (settled v && settled w) = true then
        ∃ b, eqVal E v w = .ok b ∧ o = [.flag b] ∧ T' = (T.put i (Val.subst (T i) π (compared E v w).1)).put j (Val.subst (T j) ρ (compared E v w).2)
      else o = [] ∧ T' = T

/-- A program: what is printed. -/
def OMeans {τ : Type} (E : Env) (C : Clock τ) : Trees → List (OCmd τ) → List (Ans τ) → Trees → Prop
  | T, [], o, T' => o = [] ∧ T' = T
  | T, c :: cs, o, T' => ∃ o1 o2 T1, c.means E C T o1 T1 ∧ OMeans E C T1 cs o2 T' ∧ o = o1 ++ o2

section
variable {s s' : St} {L L' : Nat → Option Live} {T T' : Trees}

theorem trees_put_self (T : Trees) (i : Nat) : T.put i (T i) = T := by
  funext k
  unfold Trees.put
  split
  · rename_i h; rw [h]
  · rfl

theorem setKid_self : ∀ {v : Val} {i : Nat} {x : Val}, (Val.kids v)[i]? = some x → Val.setKid v i x = v := by
  intro v i x h
  cases v with
  | obj ku kvs =>
    simp only [Val.kids, List.getElem?_map, Option.map_eq_some_iff] at h
    obtain ⟨kv, h1, h2⟩ := h
    simp only [Val.setKid, Val.obj.injEq, true_and]
    refine List.ext_getElem? fun j => ?_
    rw [List.getElem?_modify]
    by_cases hj : i = j
    · subst hj; rw [h1, ← h2]; simp
    · simp [hj]
  | arr xs =>
    simp only [Val.kids] at h
    simp only [Val.setKid, Val.arr.injEq]
    refine List.ext_getElem? fun j => ?_
    rw [List.getElem?_set]
    by_cases hj : i = j
    · subst hj; rw [h]; simp; exact (List.getElem?_eq_some_iff.1 h).1
    · simp [hj]
  | _ => rfl

theorem subst_self : ∀ {π : List Nat} {v w : Val}, Val.sub v π = some w → Val.subst v π w = v
  | [], v, w, h => by cases h; rfl
  | i :: π, v, w, h => by
    simp only [Val.sub, Option.bind_eq_some_iff] at h
    obtain ⟨x, h1, h2⟩ := h
    simp only [Val.subst, h1]
    rw [subst_self h2, setKid_self h1]

theorem walk_sub {i : Nat} {π : List Nat} {v : Val} (h : T.walk i π = .ok v) : Val.sub (T i) π = some v := by
  unfold Trees.walk at h
  split at h
  · cases h
  · cases h
  · rename_i w _ e; cases h; exact e

/-- After a question everything is as before, except that the value asked is what the tree says. -/
theorem Holds.asked {τ : Type} (hT : Holds s T) (S : Sound s L) (E : Env) (C : Clock τ) {i : Nat} {π : List Nat} {q : Ptr} (e : s.walk i π = .ok q) (a : Ask τ) :
    ∃ v, T.walk i π = .ok v ∧ (a.run E C s.heap q).1 = (a.onTree E C v).1 ∧ Holds { s with heap := (a.run E C s.heap q).2 } (T.put i (Val.subst (T i) π (a.onTree E C v).2)) ∧
      ∃ L', Sound { s with heap := (a.run E C s.heap q).2 } L' := by
  have hw := hT.walk S i π
  rw [e] at hw
  obtain ⟨v, G, hv, g, -, hup⟩ := hw
  obtain ⟨e1, G', u⟩ := Ask.exact E C g a
  refine ⟨v, hv, e1, ?_⟩
  by_cases h5 : 5 ≤ q
  · obtain ⟨x, hx, hp, -, hsub, hu⟩ := hup h5
    obtain ⟨R', u'⟩ := hu [] _ _ G' u (by simp)
    obtain ⟨L', S', hk⟩ := S.change hx (x' := ⟨x.p, R', x.cs ++ newIds s.heap (a.run E C s.heap q).2⟩) rfl
      (S.world.step hx u' (Ask.step E C S.world.inv q a)) (S.others hx u'.frame)
    refine ⟨fun k => ?_, L', S'⟩
    by_cases hki : k = i
    · subst hki
      rw [trees_put_same]
      show ∃ F, Rep _ _ (s.var k) F
      rw [hp]
      exact ⟨R', u'.good.rep⟩
    · rw [trees_put_ne _ _ hki]
      exact hT.keep S S'.world.inv (hk k hki)
  · have ec : (a.run E C s.heap q).2 = s.heap := Ask.const E C S.world.inv (by omega) a
    rw [ec] at u ⊢
    rw [(rep_det u.good.rep g.rep).1, subst_self (walk_sub hv), trees_put_self]
    exact ⟨hT, L, S⟩

theorem Good.calm {h : Heap} {p : Ptr} {v : Val} {F : List Ptr} (g : Good h (some p) v F) : calm h p = settled v := by
  unfold Heap.calm; rw [g.seenAt]

/-- A position depends only on the nodes of the tree. -/
theorem ptrAt_frame {m m' : Ptr → Node} : ∀ {π : List Nat} {v : Val} {a : Option Ptr} {F : List Ptr}, Rep m v a F → (∀ q, q ∈ F ∨ q < 5 → m' q = m q) → ptrAt m' a π = ptrAt m a π
  | [], _, _, _, _, _ => rfl
  | _ :: _, _, none, _, _, _ => rfl
  | i :: π, v, some p, F, hr, hm => by
    have e : m' p = m p := by
      by_cases h5 : p < 5
      · exact hm p (Or.inr h5)
      · exact hm p (Or.inl (rep_mem hr (by omega)))
    rw [ptrAt, ptrAt, e]
    cases hk : (Node.kids (m p))[i]? with
    | none => rfl
    | some b =>
      have hi := (List.getElem?_eq_some_iff.1 hk).1
      rw [rep_kids_len hr] at hi
      obtain ⟨p', q, F1, Fi, F2, e', -, hk', rfl, hrx, -⟩ := repL_kid hr (List.getElem?_eq_getElem hi)
      cases e'
      rw [hk] at hk'
      cases hk'
      exact ptrAt_frame hrx (fun r hr => hm r (hr.imp (fun h => by simp [h]) id))

/-- A node of a variable is changed. -/
theorem Holds.updated (hT : Holds s T) (S : Sound s L) {i : Nat} {π : List Nat} {p : Ptr} (e : s.walk i π = .ok p) (h5 : 5 ≤ p) {v v' : Val} {F F' : List Ptr}
    (hr : Rep s.heap.mem v (some p) F) {h' : Heap} (u : Upd s.heap F h' (some p) v' F') (st : ∀ X, Step X s.heap h') :
    Holds { s with heap := h' } (T.put i (Val.subst (T i) π v')) ∧ ∃ L', Sound { s with heap := h' } L' ∧ ∀ k, k ≠ i → Keeps s { s with heap := h' } L L' k := by
  have hw := hT.walk S i π
  rw [e] at hw
  obtain ⟨v0, G, hv, g, -, hup⟩ := hw
  obtain ⟨rfl, rfl⟩ := rep_det hr g.rep
  obtain ⟨x, hx, hp, -, hsub, hu⟩ := hup h5
  obtain ⟨R', u'⟩ := hu [] _ _ F' u (by simp)
  obtain ⟨L', S', hk⟩ := S.change hx (x' := ⟨x.p, R', x.cs ++ newIds s.heap h'⟩) rfl (S.world.step hx u' (st _)) (S.others hx u'.frame)
  refine ⟨fun k => ?_, L', S', hk⟩
  by_cases hki : k = i
  · subst hki
    rw [trees_put_same]
    show ∃ F, Rep _ _ (s.var k) F
    rw [hp]
    exact ⟨R', u'.good.rep⟩
  · rw [trees_put_ne _ _ hki]
    exact hT.keep S S'.world.inv (hk k hki)

theorem vt_const {h : Heap} (I : Inv h) {p : Ptr} (h5 : p < 5) {v : Val} {F : List Ptr} (hr : Rep h.mem v (some p) F) :
    v.vt ≠ .object ∧ v.vt ≠ .array ∧ v.vt ≠ .string ∧ v.vt ≠ .rawString := by
  have hd : (h.mem p).dt = v.vt := rep_dt hr
  rw [I.const p h5] at hd
  rw [← hd]
  have : p = 0 ∨ p = 1 ∨ p = 2 ∨ p = 3 ∨ p = 4 := by omega
  rcases this with rfl | rfl | rfl | rfl | rfl <;> decide

/-- Comparing values of two variables. -/
theorem Holds.compared (hT : Holds s T) (S : Sound s L) (E : Env) {i j : Nat} (hij : i ≠ j) {π ρ : List Nat} {p q : Ptr} (e1 : s.walk i π = .ok p) (e2 : s.walk j ρ = .ok q) (f : Nat) :
    ∃ v w, T.walk i π = .ok v ∧ T.walk j ρ = .ok w ∧
      match equal E f s.heap (some p) (some q) with
      | .ok (x, h') => eqVal E v w = .ok x ∧ (∃ L', Sound { s with heap := h' } L') ∧
          Holds { s with heap := h' } ((T.put i (Val.subst (T i) π (Heap.compared E v w).1)).put j (Val.subst (T j) ρ (Heap.compared E v w).2))
      | .err _ => False
      | .panic => eqVal E v w = .panic
      | .loop => f < height v := by
  have hp := hT.walk S i π
  have hq := hT.walk S j ρ
  rw [e1] at hp
  rw [e2] at hq
  obtain ⟨v, F, hv, g, hF, -⟩ := hp
  obtain ⟨w, G, hw, g', hG, hupj⟩ := hq
  refine ⟨v, w, hv, hw, ?_⟩
  have hd : ∀ r ∈ F, r ∉ G := by
    intro r h1 h2
    obtain ⟨x, hx, hxr⟩ := hF r h1
    obtain ⟨y, hy, hyr⟩ := hG r h2
    exact (S.world.apart i j x y hij hx hy).nodes r hxr hyr
  have hn : (F ++ G).Nodup := List.nodup_append.2 ⟨g.nodup, g'.nodup, fun a ha b hb hab => hd a ha (hab ▸ hb)⟩
  have hl : ∀ r ∈ F ++ G, ¬Avail s.heap r := by
    intro r hr
    rcases List.mem_append.1 hr with h | h
    · exact g.live r h
    · exact g'.live r h
  have ok := equal_spec E f s.heap (some p) (some q) v w F G g.inv g.rep g'.rep hn hl
  cases er : equal E f s.heap (some p) (some q) with
  | err x => rw [er] at ok; exact ok
  | panic => rw [er] at ok; exact ok
  | loop => rw [er] at ok; exact ok
  | ok r =>
    obtain ⟨x, h'⟩ := r
    rw [er] at ok
    obtain ⟨ex, fr, r1, r2⟩ := ok
    refine ⟨ex, ?_⟩
    by_cases hc : 5 ≤ p ∧ 5 ≤ q
    · obtain ⟨hp5, hq5⟩ := hc
      have k := equal_kept E f _ _ _ _ _ er
      have u1 := k.one g.inv fr.inv r1 g.nodup g.live
      obtain ⟨hT1, L1, S1, K1⟩ := hT.updated S e1 hp5 g.rep u1 (fun X => (k.patch F).step u1.good.inv)
      have gj : Rep (patch s.heap h' F).mem w (some q) G := u1.frame.rep_keep g.inv g'.rep g'.live (fun r hr hF => hd r hF hr)
      obtain ⟨y, hy, hvy, -, -, -⟩ := hupj hq5
      have e2' : ({ s with heap := patch s.heap h' F } : St).walk j ρ = .ok q := by
        obtain ⟨Rj, hRj⟩ := hT j
        rw [hvy] at hRj
        obtain ⟨vy, gy⟩ := (S.world.held j y hy).good
        obtain ⟨rfl, rfl⟩ := rep_det gy.rep hRj
        have hpt := ptrAt_frame (π := ρ) (m' := (patch s.heap h' F).mem) hRj (by
          intro r hr
          refine patch_out (fun hrF => ?_)
          rcases hr with hr | hr
          · obtain ⟨x, hx, hxr⟩ := hF r hrF
            exact (S.world.apart i j x y hij hx hy).nodes r hxr hr
          · have := rep_ge g.rep r hrF; omega)
        unfold St.walk at e2 ⊢
        dsimp only
        rw [hvy] at e2 ⊢
        simp only [Option.bind_some] at e2 ⊢
        rw [hpt]; exact e2
      have hd' : ∀ r ∈ G, r ∉ F := fun r h1 h2 => hd r h2 h1
      have u2 : Upd (patch s.heap h' F) G h' (some q) (Heap.compared E v w).2 G := by
        refine ⟨⟨fr.inv, r2, g'.nodup, fun r hr ha => g'.live r hr ((k.avail r).1 ha)⟩, ⟨fr.inv, fun r hr => ((k.unpatch F).avail r).1 hr, fun r h5 hr ha => ?_⟩, fun r hr => Or.inl hr⟩
        by_cases hrF : r ∈ F
        · rw [patch_in hrF]
        · rw [patch_out hrF]
          exact fr.mem r h5 (by simp [hrF, hr]) (fun h => ha (((k.patch F).avail r).2 h))
      obtain ⟨hT2, L2, S2, -⟩ := hT1.updated S1 e2' hq5 gj u2 (fun X => (k.unpatch F).step fr.inv)
      rw [trees_put_ne _ _ (Ne.symm hij)] at hT2
      exact ⟨⟨L2, S2⟩, hT2⟩
    · have hfl : Heap.compared E v w = (v, w) ∧ h' = s.heap := by
        have hh : ¬(v.vt = .object ∧ w.vt = .object) ∧ ¬(v.vt = .array ∧ w.vt = .array) ∧ ¬(v.vt = .string ∧ w.vt = .rawString) ∧ ¬(v.vt = .rawString ∧ w.vt = .string) := by
          by_cases h5 : p < 5
          · obtain ⟨a, b, c, d⟩ := vt_const g.inv h5 g.rep
            exact ⟨fun h => a h.1, fun h => b h.1, fun h => c h.1, fun h => d h.1⟩
          · obtain ⟨a, b, c, d⟩ := vt_const g.inv (p := q) (by omega) g'.rep
            exact ⟨fun h => a h.2, fun h => b h.2, fun h => d h.2, fun h => c h.2⟩
        obtain ⟨a, b, c, d⟩ := hh
        refine ⟨compared_flat E a b c d, ?_⟩
        cases f with
        | zero => simp [equal] at er
        | succ f =>
          obtain ⟨y, e3, -⟩ := equal_flat (E := E) (f := f) g.inv g.rep g'.rep a b c d
          rw [er] at e3
          cases e3; rfl
      obtain ⟨hf1, rfl⟩ := hfl
      rw [hf1, subst_self (walk_sub hv), subst_self (walk_sub hw), trees_put_self, trees_put_self]
      exact ⟨⟨L, S⟩, hT⟩

/-- One statement. -/
theorem Holds.oexec {τ : Type} (hT : Holds s T) (S : Sound s L) (E : Env) (C : Clock τ) (c : OCmd τ) {o : List (Ans τ)} (e : c.exec E C s = .ok (o, s')) :
    ∃ T', c.means E C T o T' ∧ Holds s' T' ∧ ∃ L', Sound s' L' := by
  cases c with
  | run c =>
    simp only [OCmd.exec, Res.bind_eq_ok] at e
    obtain ⟨s1, e1, e2⟩ := e
    cases e2
    obtain ⟨T', h1, h2⟩ := hT.pexec S E c e1
    obtain ⟨L', S', -⟩ := S.pexec E c e1
    exact ⟨T', ⟨rfl, h1⟩, h2, L', S'⟩
  | ask i π a =>
    simp only [OCmd.exec, Res.bind_eq_ok] at e
    obtain ⟨q, e1, x, e2, e3⟩ := e
    cases e3
    obtain ⟨v, hv, h1, h2, h3⟩ := hT.asked S E C e1 a
    exact ⟨_, ⟨v, x, hv, by rw [← h1, e2], rfl, rfl⟩, h2, h3⟩
  | same i π j ρ f =>
    simp only [OCmd.exec, Res.bind_eq_ok] at e
    obtain ⟨p, e1, q, e2, e3⟩ := e
    by_cases hij : i ≠ j
    · rw [if_pos (Or.inl hij)] at e3
      obtain ⟨⟨b, h'⟩, e4, e5⟩ := Res.bind_eq_ok.1 e3
      cases e5
      obtain ⟨v, w, hv, hw, h⟩ := hT.compared S E hij e1 e2 f
      rw [e4] at h
      exact ⟨_, ⟨v, w, hv, hw, by rw [if_pos (Or.inl hij)]; exact ⟨b, h.1, rfl, rfl⟩⟩, h.2.2, h.2.1⟩
    have hp := hT.walk S i π
    have hq := hT.walk S j ρ
    rw [e1] at hp
    rw [e2] at hq
    obtain ⟨v, F, hv, g, -⟩ := hp
    obtain ⟨w, G, hw, g', -⟩ := hq
    rw [g.calm, g'.calm] at e3
    by_cases hs : (settled v && settled w) = true
    · rw [if_pos (Or.inr hs)] at e3
      obtain ⟨⟨b, h'⟩, e4, e5⟩ := Res.bind_eq_ok.1 e3
      cases e5
      have hs' := hs
      simp only [Bool.and_eq_true] at hs'
      have := equal_settled E f s.heap (some p) (some q) v w F G S.world.inv g.rep g'.rep (settled_iff.1 hs'.1) (settled_iff.1 hs'.2)
      rw [e4] at this
      obtain ⟨rfl, hb⟩ := this
      refine ⟨T, ⟨v, w, hv, hw, ?_⟩, hT, L, S⟩
      rw [if_pos (Or.inr hs)]
      refine ⟨b, hb, rfl, ?_⟩
      rw [compared_settled E v w hs'.1 hs'.2, subst_self (walk_sub hv), subst_self (walk_sub hw), trees_put_self, trees_put_self]
    · rw [if_neg (by simp [hij, hs])] at e3
      cases e3
      exact ⟨T, ⟨v, w, hv, hw, by rw [if_neg (by simp [hij, hs])]; exact ⟨rfl, rfl⟩⟩, hT, L, S⟩

/-- A whole program. -/
theorem Holds.oexecAll {τ : Type} (E : Env) (C : Clock τ) : ∀ (cs : List (OCmd τ)) {s s' : St} {L : Nat → Option Live} {T : Trees} {o : List (Ans τ)}, Holds s T → Sound s L →
    oexecAll E C s cs = .ok (o, s') → ∃ T', OMeans E C T cs o T' ∧ Holds s' T'
  | [], _, _, _, T, _, hT, _, e => by cases e; exact ⟨T, ⟨rfl, rfl⟩, hT⟩
  | c :: cs, s, s', L, T, o, hT, S, e => by
    rw [Heap.oexecAll] at e
    obtain ⟨⟨o1, s1⟩, e1, e2⟩ := Res.bind_eq_ok.1 e
    obtain ⟨⟨o2, s2⟩, e3, e4⟩ := Res.bind_eq_ok.1 e2
    cases e4
    obtain ⟨T1, h1, hT1, L1, S1⟩ := hT.oexec S E C c e1
    obtain ⟨T', h2, hT'⟩ := Holds.oexecAll E C cs hT1 S1 e3
    exact ⟨T', ⟨o1, o2, T1, h1, h2, rfl⟩, hT'⟩

/-! ## Nothing of the memory shows -/

/-- A getter that shows nothing of the memory: `Bool` reads the whole word of a Float, `ToBson` writes it. -/
def Get.sure (v : Val) : Get → Bool
  | .bool => match v with | .float _ => false | _ => true
  | .bson => noFloat v
  | _ => true

/-- The same behind a path. -/
def Get.sureBehind (E : Env) (g : Get) : List Bytes → Val → Bool
  | [], v => g.sure v
  | k :: path, v =>
    match namePos E k v with
    | none => true
    | some i =>
      match (Val.kids v)[i]? with
      | none | some .nil => true
      | some w => g.sureBehind E path w

/-- A question that shows nothing of the memory. -/
def Ask.sure {τ : Type} (E : Env) (v : Val) : Ask τ → Bool
  | .here g => g.sure v
  | .path ps _ g => g.sureBehind E ps v
  | .index i _ g =>
    match kidAt v i with
    | none | some .nil => true
    | some w => g.sure w
  | _ => true

/-- A statement on trees, without memory. Only for statements that are `sure`. -/
def OCmd.onTree {τ : Type} (E : Env) (C : Clock τ) (T : Trees) : OCmd τ → Res (List (Ans τ) × Trees)
  | .run c => do
    let T' ← c.onTree E T
    .ok ([], T')
  | .ask i π a => do
    let v ← T.walk i π
    let x ← (a.onTree E C v).1
    .ok ([x], T.put i (Val.subst (T i) π (a.onTree E C v).2))
  | .same i π j ρ _ => do
    let v ← T.walk i π
    let w ← T.walk j ρ
    if i ≠ j ∨ (settled v && settled w) = true then do
      let b ← eqVal E v w
      .ok ([.flag b], (T.put i (Val.subst (T i) π (compared E v w).1)).put j (Val.subst (T j) ρ (compared E v w).2))
    else .ok ([], T)

/-- A statement that shows nothing of the memory. `Equal` compares the whole words of two Floats. -/
def OCmd.sure {τ : Type} (E : Env) (T : Trees) : OCmd τ → Prop
  | .run c => c.sure E T
  | .ask i π a => ∀ v, T.walk i π = .ok v → a.sure E v = true
  | .same i π j ρ f => ∀ v w, T.walk i π = .ok v → T.walk j ρ = .ok w → noFloat v = true ∧ noFloat w = true ∧ height v ≤ f

/-- A program on trees. -/
def otreeRun {τ : Type} (E : Env) (C : Clock τ) : Trees → List (OCmd τ) → Res (List (Ans τ) × Trees)
  | T, [] => .ok ([], T)
  | T, c :: cs => do
    let r ← c.onTree E C T
    let r' ← otreeRun E C r.2 cs
    .ok (r.1 ++ r'.1, r'.2)

/-- Every statement that is reached is sure. -/
def osureAll {τ : Type} (E : Env) (C : Clock τ) : Trees → List (OCmd τ) → Prop
  | _, [] => True
  | T, c :: cs => c.sure E T ∧ ∀ o T', c.onTree E C T = .ok (o, T') → osureAll E C T' cs

/-- The same statement without caches. -/
def OCmd.plain {τ : Type} : OCmd τ → OCmd τ
  | .run c => .run c.plain
  | c => c

/-! ### The unused half of a Float does not show -/

open Json in
theorem formatL_step (E : Env) (st : Style) (d : Bool) (v : Val) (vs : List Val) (h1 : ∀ l dst, format E st d (canon v) l dst = format E st d v l dst)
    (h2 : ∀ i l dst, formatL E st d (canonL vs) i l dst = formatL E st d vs i l dst) (i l : Nat) (dst : Bytes) :
    formatL E st d (canonL (v :: vs)) i l dst = formatL E st d (v :: vs) i l dst := by
  cases v with
  | _ => simp only [canonL, canon] at h1 ⊢; simp only [formatL]; simp only [h1, h2]

open Json in
mutual
/-- The formatted JSON text does not depend on the unused half of a Float. -/
theorem format_canon (E : Env) (st : Style) (d : Bool) : ∀ v l dst, format E st d (canon v) l dst = format E st d v l dst
  | .float _, l, dst => by simp [canon, format]
  | .obj _ kvs, l, dst => by simp only [canon, format]; rw [formatM_canon E st d _ kvs]
  | .arr xs, l, dst => by simp only [canon, format]; rw [formatL_canon E st d xs]
  | .nil, _, _ => rfl
  | .str _, _, _ => rfl
  | .raw _, _, _ => rfl
  | .int _ _, _, _ => rfl
  | .double _, _, _ => rfl
  | .dateTime _, _, _ => rfl
  | .bin _ _, _, _ => rfl
  | .exbin _ _, _, _ => rfl
  | .null, _, _ => rfl
  | .tru, _, _ => rfl
  | .fls, _, _ => rfl
  | .nan, _, _ => rfl
  | .inf, _, _ => rfl
theorem formatM_canon (E : Env) (st : Style) (d : Bool) (ku : Bool) : ∀ kvs i l dst, formatM E st d ku (canonM kvs) i l dst = formatM E st d ku kvs i l dst
  | [], _, _, _ => rfl
  | (k, v) :: kvs, i, l, dst => by
    simp only [canonM, formatM]
    simp only [format_canon E st d v, formatM_canon E st d ku kvs]
theorem formatL_canon (E : Env) (st : Style) (d : Bool) : ∀ xs i l dst, formatL E st d (canonL xs) i l dst = formatL E st d xs i l dst
  | [], _, _, _ => rfl
  | v :: vs, i, l, dst => formatL_step E st d v vs (format_canon E st d v) (formatL_canon E st d vs) i l dst
end

theorem unescKeys_canonM (E : Env) (ku : Bool) (kvs : List (Bytes × Val)) : canonM (unescKeys E ku kvs) = unescKeys E ku (canonM kvs) := by
  unfold unescKeys
  split
  · rfl
  · induction kvs with
    | nil => rfl
    | cons kv kvs ih => simp only [List.map_cons, canonM, ih]

theorem canonM_isEmpty (kvs : List (Bytes × Val)) : (canonM kvs).isEmpty = kvs.isEmpty := by cases kvs <;> rfl

mutual
theorem softened_canon (E : Env) (full : Bool) : ∀ v : Val, canon (softened E full v) = softened E full (canon v)
  | .obj ku kvs => by
    simp only [softened, canon, canonM_isEmpty]
    split
    · simp only [canon, unescKeys_canonM, softenedM_canon E full kvs]
    · rfl
  | .arr xs => by simp only [softened, canon, softenedL_canon E full xs]
  | .raw _ => by simp only [softened, canon]; split <;> rfl
  | .nil | .str _ | .int _ _ | .float _ | .double _ | .dateTime _ | .bin _ _ | .exbin _ _ | .null | .tru | .fls | .nan | .inf => rfl
theorem softenedM_canon (E : Env) (full : Bool) : ∀ kvs : List (Bytes × Val), canonM (softenedM E full kvs) = softenedM E full (canonM kvs)
  | [] => rfl
  | (_, v) :: kvs => by simp only [softenedM, canonM, softened_canon E full v, softenedM_canon E full kvs]
theorem softenedL_canon (E : Env) (full : Bool) : ∀ xs : List Val, canonL (softenedL E full xs) = softenedL E full (canonL xs)
  | [] => rfl
  | v :: vs => by simp only [softenedL, canonL, softened_canon E full v, softenedL_canon E full vs]
end

theorem Get.after_canon (E : Env) (g : Get) (v : Val) : canon (g.after E v) = g.after E (canon v) := by
  have h1 : canon (readOnce E v) = readOnce E (canon v) := by cases v <;> rfl
  cases g with
  | string => exact h1
  | duration d => exact h1
  | json f st d =>
    cases st with
    | noEscape => exact softened_canon E false v
    | _ => rfl
  | bson => exact softened_canon E true v
  | _ => rfl

theorem Get.sure_canon (g : Get) (v : Val) : g.sure (canon v) = g.sure v := by
  cases g with
  | bool => cases v <;> rfl
  | bson => exact canon_noFloat v
  | _ => rfl

theorem Get.onTree_canon {τ : Type} (E : Env) (C : Clock τ) (g : Get) (v : Val) (h : g.sure v = true) : g.onTree E C (canon v) = g.onTree E C v := by
  have lo : ∀ c : BitVec 64, lo32 (setLo32 0 (lo32 c)) = lo32 c := fun c => Dxs.lo32_setLo32 0 (lo32 c)
  cases g with
  | type => simp only [Get.onTree, canon_vt]
  | count => simp only [Get.onTree, kids_canon, List.length_map]
  | int =>
    cases v with
    | float c => show Res.ok (Ans.num (E.f32toI (lo32 (setLo32 0 (lo32 c))))) = .ok (.num (E.f32toI (lo32 c))); rw [lo]
    | _ => rfl
  | double =>
    cases v with
    | float c => show Res.ok (Ans.num (E.f32to64 (lo32 (setLo32 0 (lo32 c))))) = .ok (.num (E.f32to64 (lo32 c))); rw [lo]
    | _ => rfl
  | float =>
    cases v with
    | float c => show Res.ok (Ans.num32 (lo32 (setLo32 0 (lo32 c)))) = .ok (.num32 (lo32 c)); rw [lo]
    | _ => rfl
  | bool => cases v <;> first | rfl | (simp [Get.sure] at h)
  | string =>
    cases v with
    | float c =>
      show (Res.ok (E.fmtFloat (E.f32to64 (lo32 (setLo32 0 (lo32 c)))))).bind (fun b => Res.ok (Ans.text b)) = (Res.ok (E.fmtFloat (E.f32to64 (lo32 c)))).bind (fun b => Res.ok (Ans.text b))
      rw [lo]
    | obj ku kvs =>
      show (Json.format E .onlyAnsi false (canon (.obj ku kvs)) 0 []).bind _ = (Json.format E .onlyAnsi false (.obj ku kvs) 0 []).bind _
      rw [format_canon]
    | arr xs =>
      show (Json.format E .onlyAnsi false (canon (.arr xs)) 0 []).bind _ = (Json.format E .onlyAnsi false (.arr xs) 0 []).bind _
      rw [format_canon]
    | _ => rfl
  | binary => cases v <;> rfl
  | binLen => cases v <;> rfl
  | binExtType => cases v <;> rfl
  | dateTime =>
    cases v with
    | float c => show Res.ok (Ans.num (E.f32to64 (lo32 (setLo32 0 (lo32 c))))) = .ok (.num (E.f32to64 (lo32 c))); rw [lo]
    | _ => rfl
  | goTime =>
    cases v with
    | float c => show Res.ok (Ans.time (C.toTime (E.f32to64 (lo32 (setLo32 0 (lo32 c)))))) = .ok (.time (C.toTime (E.f32to64 (lo32 c)))); rw [lo]
    | _ => rfl
  | duration d => cases v <;> rfl
  | msgPack => simp only [Get.onTree, MsgPack.value2MsgPack, enc_canon]
  | json f st d =>
    simp only [Get.onTree, Json.value2FormatJson, Json.value2Json, format_canon, toJson_canon]
  | bson => rw [canon_same v h]

theorem Get.behind_some {τ : Type} {E : Env} {C : Clock τ} {d : Ans τ} {g : Get} {k : Bytes} {ps : List Bytes} {v w : Val} {i : Nat} (hn : namePos E k v = some i)
    (hk : (Val.kids v)[i]? = some w) (h0 : w ≠ .nil) :
    g.behind E C d (k :: ps) v = ((g.behind E C d ps w).1, Val.setKid (looked E k v) i (g.behind E C d ps w).2) := by
  simp only [Get.behind, hn, hk]

theorem Get.sureBehind_some {E : Env} {g : Get} {k : Bytes} {ps : List Bytes} {v w : Val} {i : Nat} (hn : namePos E k v = some i)
    (hk : (Val.kids v)[i]? = some w) (h0 : w ≠ .nil) : g.sureBehind E (k :: ps) v = g.sureBehind E ps w := by
  simp only [Get.sureBehind, hn, hk]

theorem kid_canon {v : Val} {i : Nat} {w : Val} (h : (Val.kids v)[i]? = some w) : (Val.kids (canon v))[i]? = some (canon w) := by
  rw [kids_canon, List.getElem?_map, h]; rfl

theorem kid_canon_none {v : Val} {i : Nat} (h : (Val.kids v)[i]? = none) : (Val.kids (canon v))[i]? = none := by
  rw [kids_canon, List.getElem?_map, h]; rfl

theorem Get.behind_canon {τ : Type} (E : Env) (C : Clock τ) (d : Ans τ) (g : Get) : ∀ (ps : List Bytes) (v : Val), g.sureBehind E ps v = true →
    (g.behind E C d ps (canon v)).1 = (g.behind E C d ps v).1 ∧ (g.behind E C d ps (canon v)).2 = canon (g.behind E C d ps v).2
  | [], v, h => ⟨Get.onTree_canon E C g v h, (Get.after_canon E g v).symm⟩
  | k :: ps, v, h => by
    cases hn : namePos E k v with
    | none => simp only [Get.behind, namePos_canon, hn, looked_canon, and_self]
    | some i =>
      cases hk : (Val.kids v)[i]? with
      | none => simp only [Get.behind, namePos_canon, hn, hk, kid_canon_none hk, looked_canon, and_self]
      | some w =>
        by_cases h0 : w = .nil
        · subst h0
          have hk' : (Val.kids (canon v))[i]? = some .nil := kid_canon hk
          simp only [Get.behind, namePos_canon, hn, hk, hk', looked_canon, and_self]
        · rw [Get.sureBehind_some hn hk h0] at h
          obtain ⟨i1, i2⟩ := Get.behind_canon E C d g ps w h
          rw [Get.behind_some hn hk h0, Get.behind_some ((namePos_canon E k v).trans hn) (kid_canon hk) (fun e => h0 (canon_nil.1 e))]
          exact ⟨i1, by rw [i2, setKid_canon, looked_canon]⟩

theorem Get.sureBehind_canon (E : Env) (g : Get) : ∀ (ps : List Bytes) (v : Val), g.sureBehind E ps (canon v) = g.sureBehind E ps v
  | [], v => Get.sure_canon g v
  | k :: ps, v => by
    cases hn : namePos E k v with
    | none => simp only [Get.sureBehind, namePos_canon, hn]
    | some i =>
      cases hk : (Val.kids v)[i]? with
      | none => simp only [Get.sureBehind, namePos_canon, hn, hk, kid_canon_none hk]
      | some w =>
        by_cases h0 : w = .nil
        · subst h0
          have hk' : (Val.kids (canon v))[i]? = some .nil := kid_canon hk
          simp only [Get.sureBehind, namePos_canon, hn, hk, hk']
        · rw [Get.sureBehind_some hn hk h0, Get.sureBehind_some ((namePos_canon E k v).trans hn) (kid_canon hk) (fun e => h0 (canon_nil.1 e))]
          exact Get.sureBehind_canon E g ps w

/-- All getters but two are sure everywhere. -/
theorem Ask.sure_of {τ : Type} (E : Env) (v : Val) {g : Get} (h : ∀ w, g.sure w = true) (ps : List Bytes) (i : Int) (d : Ans τ) :
    (Ask.here g : Ask τ).sure E v = true ∧ (Ask.path ps d g).sure E v = true ∧ (Ask.index i d g).sure E v = true := by
  refine ⟨h v, ?_, ?_⟩
  · show g.sureBehind E ps v = true
    induction ps generalizing v with
    | nil => exact h v
    | cons k ps ih =>
      simp only [Get.sureBehind]
      split
      · rfl
      · split
        · rfl
        · rfl
        · exact ih _
  · simp only [Ask.sure]
    split
    · rfl
    · rfl
    · exact h _

theorem kidAt_canon (v : Val) (i : Int) : kidAt (canon v) i = (kidAt v i).map canon := by
  unfold kidAt
  rw [kids_canon]
  split <;> simp [List.getElem?_map]

theorem Ask.sure_canon {τ : Type} (E : Env) (a : Ask τ) (v : Val) : a.sure E (canon v) = a.sure E v := by
  cases a with
  | here g => exact Get.sure_canon g v
  | path ps d g => exact Get.sureBehind_canon E g ps v
  | index i d g =>
    simp only [Ask.sure, kidAt_canon]
    cases kidAt v i with
    | none => rfl
    | some w =>
      by_cases h0 : w = .nil
      · subst h0; rfl
      · have h1 : canon w ≠ .nil := fun e => h0 (canon_nil.1 e)
        simp only [Option.map_some, Get.sure_canon]
  | _ => rfl

theorem contents_canon (E : Env) (v : Val) : (contents E (canon v)).map Prod.fst = (contents E v).map Prod.fst := by
  cases v with
  | obj ku kvs => cases ku <;> simp [canon, contents, members, canonM_eq, Function.comp_def]
  | arr xs => simp [canon, contents, canonL_eq, Function.comp_def]
  | _ => rfl

theorem Ask.onTree_canon {τ : Type} (E : Env) (C : Clock τ) (a : Ask τ) (v : Val) (h : a.sure E v = true) :
    (a.onTree E C (canon v)).1 = (a.onTree E C v).1 ∧ (a.onTree E C (canon v)).2 = canon (a.onTree E C v).2 := by
  cases a with
  | here g => exact ⟨Get.onTree_canon E C g v h, (Get.after_canon E g v).symm⟩
  | path ps d g => exact Get.behind_canon E C d g ps v h
  | index i d g =>
    simp only [Ask.sure] at h
    simp only [Ask.onTree, kidAt_canon]
    cases hk : kidAt v i with
    | none => exact ⟨rfl, rfl⟩
    | some w =>
      rw [hk] at h
      by_cases h0 : w = .nil
      · subst h0; exact ⟨rfl, rfl⟩
      · have h1 : canon w ≠ .nil := fun e => h0 (canon_nil.1 e)
        simp only at h
        simp only [Option.map_some]
        exact ⟨Get.onTree_canon E C g w h, by rw [setKid_canon, Get.after_canon]⟩
  | keyName i =>
    refine ⟨?_, rfl⟩
    cases v with
    | obj ku kvs =>
      simp only [Ask.onTree, canon, canonM_eq, List.getElem?_map, Option.map_map]
      rfl
    | _ => rfl
  | item i =>
    constructor
    · simp only [Ask.onTree]
      rw [← List.getElem?_map, ← List.getElem?_map, contents_canon]
    · cases v with
      | obj ku kvs =>
        simp only [Ask.onTree, canon, canonM_eq, List.length_map]
        split
        · rw [canon, unescKeys_canonM, canonM_eq]
        · simp only [canon, canonM_eq]
      | _ => rfl

mutual
theorem settled_canon : ∀ v : Val, settled (canon v) = settled v
  | .obj ku kvs => by simp only [canon, settled, settledM_canon kvs]
  | .arr xs => by simp only [canon, settled, settledL_canon xs]
  | .raw _ | .nil | .str _ | .int _ _ | .float _ | .double _ | .dateTime _ | .bin _ _ | .exbin _ _ | .null | .tru | .fls | .nan | .inf => rfl
theorem settledM_canon : ∀ kvs : List (Bytes × Val), settledM (canonM kvs) = settledM kvs
  | [] => rfl
  | (_, v) :: kvs => by simp only [canonM, settledM, settled_canon v, settledM_canon kvs]
theorem settledL_canon : ∀ xs : List Val, settledL (canonL xs) = settledL xs
  | [] => rfl
  | v :: vs => by simp only [canonL, settledL, settled_canon v, settledL_canon vs]
end

theorem Ask.like {τ : Type} (E : Env) (C : Clock τ) (a : Ask τ) {v v0 : Val} (hc : canon v = canon v0) (h : a.sure E v0 = true) :
    (a.onTree E C v).1 = (a.onTree E C v0).1 ∧ canon (a.onTree E C v).2 = canon (a.onTree E C v0).2 := by
  have h' : a.sure E v = true := by rw [← Ask.sure_canon, hc, Ask.sure_canon]; exact h
  obtain ⟨h1, h2⟩ := Ask.onTree_canon E C a v h'
  obtain ⟨h3, h4⟩ := Ask.onTree_canon E C a v0 h
  rw [hc] at h1 h2
  exact ⟨h1.symm.trans h3, h2.symm.trans h4⟩

variable {T0 : Trees}

/-- A sure statement in memory and on trees. -/
theorem OCmd.det {τ : Type} (hT : Holds s T) (S : Sound s L) (E : Env) (C : Clock τ) (c : OCmd τ) (hc : canonT T = canonT T0) (hs : c.sure E T0) :
    match c.exec E C s with
    | .ok (o, s') => ∃ T1 T2 L', Holds s' T1 ∧ Sound s' L' ∧ c.onTree E C T0 = .ok (o, T2) ∧ canonT T1 = canonT T2
    | .panic => c.onTree E C T0 = .panic
    | .loop => c.onTree E C T0 = .loop
    | .err e => c.onTree E C T0 = .err e := by
  cases c with
  | run c =>
    have h := PCmd.det hT S E c hc hs
    simp only [OCmd.exec, OCmd.onTree]
    cases e : c.exec E s with
    | ok s' =>
      rw [e] at h
      obtain ⟨T1, T2, h1, h2, h3⟩ := h
      obtain ⟨L', S', -⟩ := S.pexec E c e
      exact ⟨T1, T2, L', h1, S', by rw [h2]; rfl, h3⟩
    | panic => rw [e] at h; rw [show c.onTree E T0 = .panic from h]; rfl
    | loop => rw [e] at h; rw [show c.onTree E T0 = .loop from h]; rfl
    | err _ => rw [e] at h; exact h.elim
  | ask i π a =>
    simp only [OCmd.exec, OCmd.onTree]
    cases e : s.walk i π with
    | ok q =>
      obtain ⟨v, hv, h1, h2, L', S'⟩ := hT.asked S E C e a
      obtain ⟨v0, h0, hc0⟩ := walk_like_ok hc hv
      obtain ⟨l1, l2⟩ := Ask.like E C a hc0 (hs v0 h0)
      rw [h0]
      simp only [Res.bind_ok]
      rw [h1, l1]
      cases e1 : (a.onTree E C v0).1 with
      | ok x =>
        refine ⟨_, _, L', h2, S', rfl, put_like hc i ?_⟩
        rw [subst_canon, subst_canon, l2]
        rw [show canon (T i) = canon (T0 i) from congrFun hc i]
      | panic => rfl
      | loop => rfl
      | err _ => rfl
    | panic =>
      have hw := hT.walk S i π
      rw [e] at hw
      rw [walk_like_panic hc hw]; rfl
    | err _ => have hw := hT.walk S i π; rw [e] at hw; exact hw.elim
    | loop => have hw := hT.walk S i π; rw [e] at hw; exact hw.elim
  | same i π j ρ f =>
    simp only [OCmd.exec, OCmd.onTree]
    have hp := hT.walk S i π
    have hq := hT.walk S j ρ
    cases e1 : s.walk i π with
    | panic => rw [e1] at hp; rw [walk_like_panic hc hp]; rfl
    | err _ => rw [e1] at hp; exact hp.elim
    | loop => rw [e1] at hp; exact hp.elim
    | ok p =>
      rw [e1] at hp
      obtain ⟨v, F, hv, g, -⟩ := hp
      obtain ⟨v0, h0, hc0⟩ := walk_like_ok hc hv
      rw [h0]
      simp only [Res.bind_ok]
      cases e2 : s.walk j ρ with
      | panic => rw [e2] at hq; rw [walk_like_panic hc hq]; rfl
      | err _ => rw [e2] at hq; exact hq.elim
      | loop => rw [e2] at hq; exact hq.elim
      | ok q =>
        rw [e2] at hq
        obtain ⟨w, G, hw, g', -⟩ := hq
        obtain ⟨w0, k0, kc0⟩ := walk_like_ok hc hw
        rw [k0]
        simp only [Res.bind_ok]
        obtain ⟨n1, n2, hh⟩ := hs v0 w0 h0 k0
        have ev : v = v0 := by
          rw [← canon_same v0 n1, ← hc0, canon_same v]
          rw [← canon_noFloat, hc0, canon_noFloat]; exact n1
        have ew : w = w0 := by
          rw [← canon_same w0 n2, ← kc0, canon_same w]
          rw [← canon_noFloat, kc0, canon_noFloat]; exact n2
        subst ev ew
        rw [g.calm, g'.calm]
        by_cases hij : i ≠ j
        · rw [if_pos (Or.inl hij), if_pos (Or.inl hij)]
          obtain ⟨v1, w1, hv1, hw1, h⟩ := hT.compared S E hij e1 e2 f
          rw [hv] at hv1; cases hv1
          rw [hw] at hw1; cases hw1
          cases er : equal E f s.heap (some p) (some q) with
          | err _ => rw [er] at h; exact h.elim
          | panic => rw [er] at h; rw [show eqVal E v w = .panic from h]; rfl
          | loop => rw [er] at h; dsimp only at h; omega
          | ok r =>
            obtain ⟨b, h'⟩ := r
            rw [er] at h
            obtain ⟨hb, ⟨L', S'⟩, hT'⟩ := h
            refine ⟨_, _, L', hT', S', by rw [hb]; rfl, ?_⟩
            refine put_like (put_like hc i ?_) j ?_
            · rw [subst_canon, subst_canon, show canon (T i) = canon (T0 i) from congrFun hc i]
            · rw [subst_canon, subst_canon, show canon (T j) = canon (T0 j) from congrFun hc j]
        by_cases hs : (settled v && settled w) = true
        · rw [if_pos (Or.inr hs), if_pos (Or.inr hs)]
          simp only [Bool.and_eq_true] at hs
          have eq := equal_settled E f s.heap (some p) (some q) v w F G S.world.inv g.rep g'.rep (settled_iff.1 hs.1) (settled_iff.1 hs.2)
          rw [compared_settled E v w hs.1 hs.2, subst_self (walk_sub h0), subst_self (walk_sub k0), trees_put_self, trees_put_self]
          generalize equal E f s.heap (some p) (some q) = r at eq
          match r with
          | .ok (b, h') =>
            obtain ⟨rfl, hb⟩ := eq
            exact ⟨T, T0, L, hT, S, by rw [hb]; rfl, hc⟩
          | .panic => simp only [EqualSame] at eq; rw [eq]; rfl
          | .loop => simp only [EqualSame] at eq; omega
          | .err _ => exact eq.elim
        · rw [if_neg (by simp [hij, hs]), if_neg (by simp [hij, hs])]
          exact ⟨T, T0, L, hT, S, rfl, hc⟩

/-- A sure program in memory and on trees: the same output. -/
theorem otreeRun_det {τ : Type} (E : Env) (C : Clock τ) : ∀ (cs : List (OCmd τ)) {s : St} {L : Nat → Option Live} {T T0 : Trees}, Holds s T → Sound s L → canonT T = canonT T0 → osureAll E C T0 cs →
    match Heap.oexecAll E C s cs with
    | .ok (o, s') => ∃ T1 T2, Holds s' T1 ∧ otreeRun E C T0 cs = .ok (o, T2) ∧ canonT T1 = canonT T2
    | .panic => otreeRun E C T0 cs = .panic
    | .loop => otreeRun E C T0 cs = .loop
    | .err e => otreeRun E C T0 cs = .err e
  | [], s, L, T, T0, hT, _, hc, _ => ⟨T, T0, hT, rfl, hc⟩
  | c :: cs, s, L, T, T0, hT, S, hc, hs => by
    have h := OCmd.det hT S E C c hc hs.1
    simp only [Heap.oexecAll, otreeRun]
    cases e : c.exec E C s with
    | ok r =>
      obtain ⟨o, s'⟩ := r
      rw [e] at h
      obtain ⟨T1, T2, L', h1, S', h2, h3⟩ := h
      have ih := otreeRun_det E C cs h1 S' h3 (hs.2 o T2 h2)
      rw [h2]
      simp only [Res.bind_ok]
      cases e2 : Heap.oexecAll E C s' cs with
      | ok r =>
        obtain ⟨o2, s2⟩ := r
        rw [e2] at ih
        obtain ⟨T3, T4, i1, i2, i3⟩ := ih
        exact ⟨T3, T4, i1, by rw [i2]; rfl, i3⟩
      | panic => rw [e2] at ih; rw [show otreeRun E C T2 cs = .panic from ih]; rfl
      | loop => rw [e2] at ih; rw [show otreeRun E C T2 cs = .loop from ih]; rfl
      | err x => rw [e2] at ih; rw [show otreeRun E C T2 cs = .err x from ih]; rfl
    | panic => rw [e] at h; rw [show c.onTree E C T0 = .panic from h]; rfl
    | loop => rw [e] at h; rw [show c.onTree E C T0 = .loop from h]; rfl
    | err x => rw [e] at h; rw [show c.onTree E C T0 = .err x from h]; rfl

theorem OCmd.onTree_plain {τ : Type} (E : Env) (C : Clock τ) (T : Trees) (c : OCmd τ) : c.plain.onTree E C T = c.onTree E C T := by
  cases c with
  | run c => simp only [OCmd.plain, OCmd.onTree, PCmd.onTree_plain]
  | _ => rfl

theorem otreeRun_plain {τ : Type} (E : Env) (C : Clock τ) : ∀ (cs : List (OCmd τ)) (T : Trees), otreeRun E C T (cs.map OCmd.plain) = otreeRun E C T cs
  | [], _ => rfl
  | c :: cs, T => by
    simp only [List.map, otreeRun, OCmd.onTree_plain]
    cases c.onTree E C T with
    | ok r => simp only [Res.bind_ok, otreeRun_plain E C cs r.2]
    | _ => rfl

end

end Dxs.Heap
