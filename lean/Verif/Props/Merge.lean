import Verif.Heap.Merge
import Verif.Props.Equal
import Verif.Props.Api

/-!
# C39 and C40: MergeWith
-/

namespace Dxs.Heap

/-! ## The specification -/

/-- The union of two lists of members: members of `old` in order, a member whose name occurs in `new` becoming what `both` makes of the name and the two
values, then the members of `new` whose name does not occur in `old`. -/
def unionW (m : Bytes → Bytes → Bool) (both : Bytes → Val → Val → Val) (old new : List (Bytes × Val)) : List (Bytes × Val) :=
  old.map (fun a => match new.find? (fun b => m a.1 b.1) with | some b => (a.1, both b.1 a.2 b.2) | none => a) ++
    new.filter (fun b => !old.any (fun a => m a.1 b.1))

/-- The union where two values of the same name become the list of both. -/
def unionM (m : Bytes → Bytes → Bool) : List (Bytes × Val) → List (Bytes × Val) → List (Bytes × Val) := unionW m (fun _ a b => .arr [a, b])

/-- What becomes of two values of the same name under the merge function's answer. -/
def answered : MergeOp → Val → Val → Val
  | .custom, a, _ => a
  | .replace, _, b => b
  | .normal, a, b => .arr [a, b]

/-- Strings, integers without extension code, floats and times. -/
def Scalar : Val → Prop
  | .str _ | .raw _ | .float _ | .double _ | .dateTime _ => True
  | .int e _ => e = 0
  | _ => False

theorem Scalar.same {v : Val} (h : Scalar v) : cloneVal v = v ∧ 2 ≤ v.vt.ord ∧ v.vt.ord ≤ 9 := by
  cases v <;> simp [Scalar] at h <;> simp [cloneVal, Val.vt, VT.ord, h]

/-! ## C39 -/

theorem unionW_new {m : Bytes → Bytes → Bool} {both : Bytes → Val → Val → Val} {old r : List (Bytes × Val)} {k : Bytes} {b : Val} (h : ∀ a ∈ old, m a.1 k = false) (hr : ∀ c ∈ r, m k c.1 = false) :
    unionW m both (old ++ [(k, b)]) r = unionW m both old ((k, b) :: r) := by
  unfold unionW
  have h1 : r.find? (fun c => m k c.1) = none := List.find?_eq_none.2 (fun c hc => by simp [hr c hc])
  have h2 : old.any (fun a => m a.1 k) = false := by simpa using fun a b hab => h (a, b) hab
  simp only [List.map_append, List.map_cons, List.map_nil, h1, List.append_assoc, List.filter_cons, h2, Bool.not_false, if_true]
  congr 1
  · apply List.map_congr_left
    intro a ha
    rw [List.find?_cons]
    simp [h a ha]
  · simp only [List.cons_append, List.nil_append, List.cons.injEq, true_and]
    apply List.filter_congr
    intro c hc
    simp [hr c hc]

theorem unionW_hit {m : Bytes → Bytes → Bool} {both : Bytes → Val → Val → Val} {old r : List (Bytes × Val)} {k n : Bytes} {b x : Val} {i : Nat} (hi : old[i]? = some (n, x)) (hm : m n k = true)
    (ho : ∀ j a, old[j]? = some a → j ≠ i → m a.1 k = false) (hr : ∀ c ∈ r, m n c.1 = false) :
    unionW m both (old.modify i (fun kv => (kv.1, both k x b))) r = unionW m both old ((k, b) :: r) := by
  unfold unionW
  have h2 : old.any (fun a => m a.1 k) = true := by
    simp only [List.any_eq_true]
    exact ⟨_, List.mem_of_getElem? hi, hm⟩
  have h3 : ∀ c : Bytes × Val, (old.modify i (fun kv => (kv.1, both k x b))).any (fun a => m a.1 c.1) = old.any (fun a => m a.1 c.1) := by
    intro c
    have e : ∀ l : List (Bytes × Val), l.any (fun a => m a.1 c.1) = (l.map Prod.fst).any (fun a => m a c.1) := by intro l; simp [List.any_map, Function.comp_def]
    rw [e, e]
    congr 1
    apply List.ext_getElem?
    intro j
    simp only [List.getElem?_map, List.getElem?_modify]
    by_cases hj : i = j
    · subst hj; simp [hi]
    · simp [hj]
  congr 1
  · apply List.ext_getElem?
    intro j
    simp only [List.getElem?_map, List.getElem?_modify]
    by_cases hj : i = j
    · subst hj
      have h1 : r.find? (fun c => m n c.1) = none := List.find?_eq_none.2 (fun c hc => by simp [hr c hc])
      simp [hi, hm, h1]
    · cases ha : old[j]? with
      | none => simp
      | some a =>
        have := ho j a ha (fun e => hj e.symm)
        simp [hj, this]
  · simp [List.filter_cons, h2, h3]

/-- Along the members of `ws` the merge function, asked with the paths `mergeObject` makes, answers `ans` for the name. -/
def Answers (ask : Option (Bytes → Val → Val → MergeOp)) (ans : Bytes → Val → Val → MergeOp) (hit : Bytes → Bool) : Bytes → List (Bytes × Val) → Prop
  | _, [] => True
  | path, (k, b) :: r =>
    if hit k then
      (∀ a, (ask.map (fun f => f (if ask.isSome then mergePath path k else path) a b)).getD .normal = ans k a b) ∧
        Answers ask ans hit (if ask.isSome then mergePath path k else path) r
    else Answers ask ans hit path r

theorem mergeM_union {E : Env} (L : KeyLaws E) {ask : Option (Bytes → Val → Val → MergeOp)} {ans : Bytes → Val → Val → MergeOp} {hit : Bytes → Bool} :
    ∀ (ws : List (Bytes × Val)) (path : Bytes) (ku : Bool) (kvs : List (Bytes × Val)),
    Assoc.Distinct E.keyMatch (members E (.obj ku kvs)) → Assoc.Distinct E.keyMatch ws → OrdinaryM ws →
    (∀ a ∈ members E (.obj ku kvs), ∀ b ∈ ws, E.keyMatch a.1 b.1 = true → (ans b.1 a.2 b.2 = .normal → Scalar a.2) ∧ (ans b.1 a.2 b.2 = .replace → a.2 ≠ .nil)) →
    (∀ b ∈ ws, hit b.1 = (members E (.obj ku kvs)).any (fun a => E.keyMatch a.1 b.1)) → Answers ask ans hit path ws →
    ∃ ku2 kvs2, mergeM E ask path ku kvs ws = some (ku2, kvs2) ∧
      members E (.obj ku2 kvs2) = unionW E.keyMatch (fun k a b => answered (ans k a b) a b) (members E (.obj ku kvs)) ws := by
  intro ws
  induction ws with
  | nil => intro path ku kvs _ _ _ _ _ _; exact ⟨ku, kvs, rfl, by simp [unionW]⟩
  | cons kb r ih =>
    obtain ⟨k, b⟩ := kb
    intro path ku kvs hd hw hO hs hh hA
    obtain ⟨hb, hO'⟩ := hO
    simp only [Assoc.Distinct, List.map_cons, List.pairwise_cons, List.mem_map] at hw
    obtain ⟨hk, hw'⟩ := hw
    have hk' : ∀ c ∈ r, E.keyMatch k c.1 = false := fun c hc => hk c.1 ⟨c, hc, rfl⟩
    have hmi := members_index E ku kvs k
    have hno := indexByName_none E ku kvs k
    have hidx := indexByName_members L ku kvs hd k
    simp only [mergeM]
    rcases hix : indexByName E ku kvs k with ⟨j, ku1, kvs1⟩
    rw [hix] at hmi hno hidx
    simp only at hmi hno hidx ⊢
    rw [(Ordinary.same hb).1]
    cases j with
    | none =>
      have hn := hno rfl
      subst hn
      have hf := List.findIdx?_eq_none_iff.1 hidx.symm
      have hf' : ∀ a ∈ members E (.obj ku kvs), E.keyMatch a.1 k = false := fun a ha => by simpa using hf a ha
      have e1 : members E (.obj true (kvs1 ++ [(k, b)])) = members E (.obj ku kvs) ++ [(k, b)] := by rw [← hmi]; rfl
      obtain ⟨ku2, kvs2, e2, e3⟩ := ih path true (kvs1 ++ [(k, b)]) (by
          rw [e1]
          simp only [Assoc.Distinct, List.map_append, List.pairwise_append, List.map_cons, List.map_nil]
          refine ⟨hd, by simp, ?_⟩
          rintro a ha _ hb'
          simp only [List.mem_map] at ha
          obtain ⟨a, ha, rfl⟩ := ha
          simp only [List.mem_singleton] at hb'
          subst hb'
          exact hf' a ha) hw' hO' (by
          rw [e1]
          intro a ha c hc hm
          rcases List.mem_append.1 ha with ha | ha
          · exact hs a ha c (by simp [hc]) hm
          · simp only [List.mem_singleton] at ha
            subst ha
            rw [hk' c hc] at hm
            cases hm) (by
          rw [e1]
          intro c hc
          rw [hh c (by simp [hc])]
          simp [hk' c hc]) (by
          have hit0 : hit k = false := by
            rw [hh (k, b) (by simp)]
            simpa using fun a' b' hab => hf' (a', b') hab
          simpa [Answers, hit0] using hA)
      exact ⟨ku2, kvs2, e2, by rw [e3, e1, unionW_new hf' hk']⟩
    | some i =>
      obtain ⟨hlt, hm, -⟩ := List.findIdx?_eq_some_iff_getElem.1 hidx.symm
      obtain ⟨⟨n, x⟩, hnx⟩ : ∃ a, (members E (.obj ku kvs))[i]? = some a := ⟨_, List.getElem?_eq_getElem hlt⟩
      have hm' : E.keyMatch n k = true := by
        rw [List.getElem?_eq_getElem hlt] at hnx
        rw [Option.some.inj hnx] at hm
        exact hm
      obtain ⟨k0, hk0⟩ : ∃ k0, kvs1[i]? = some (k0, x) := by
        have h1 : (kvs1.map Prod.snd)[i]? = some x := by rw [← members_snd E ku1 kvs1, hmi]; simp [hnx]
        simp only [List.getElem?_map, Option.map_eq_some_iff] at h1
        obtain ⟨⟨a, y⟩, h1, rfl⟩ := h1
        exact ⟨a, h1⟩
      simp only [hk0]
      have hhit : hit k = true := by
        rw [hh (k, b) (by simp), List.any_eq_true]
        exact ⟨_, List.mem_of_getElem? hnx, hm'⟩
      simp only [Answers, hhit, if_true] at hA
      obtain ⟨hA1, hA2⟩ := hA
      obtain ⟨hs1, hs2⟩ := hs (n, x) (List.mem_of_getElem? hnx) (k, b) (by simp) hm'
      simp only at hs1 hs2
      have hnr : ∀ c ∈ r, E.keyMatch n c.1 = false := by
        intro c hc
        by_cases h : E.keyMatch n c.1 = true
        · have := L.match_trans (L.match_symm hm') h
          rw [hk' c hc] at this
          cases this
        · simpa using h
      obtain ⟨y, hy⟩ : ∃ y, y = answered (ans k x b) x b := ⟨_, rfl⟩
      have e1 : members E (.obj ku1 (kvs1.modify i (fun kv => (kv.1, y)))) = (members E (.obj ku kvs)).modify i (fun kv => (kv.1, y)) := by
        rw [members_modify, hmi]
      have e4 : ((members E (.obj ku kvs)).modify i (fun kv => (kv.1, y))).map Prod.fst = (members E (.obj ku kvs)).map Prod.fst := modify_fst _ _ _
      obtain ⟨ku2, kvs2, e2, e3⟩ := ih (if ask.isSome then mergePath path k else path) ku1 (kvs1.modify i (fun kv => (kv.1, y))) (by
          rw [e1, Assoc.Distinct, e4]; exact hd) hw' hO' (by
          rw [e1]
          intro a ha c hc hmc
          obtain ⟨j, hj⟩ := List.getElem?_of_mem ha
          rw [List.getElem?_modify] at hj
          by_cases hij : i = j
          · subst hij
            simp only [hnx, if_true, Option.map_eq_map, Option.map_some, Option.some.injEq] at hj
            subst hj
            rw [hnr c hc] at hmc
            cases hmc
          · simp only [hij, if_false, Option.map_eq_map, id_map'] at hj
            exact hs a (List.mem_of_getElem? (by simpa using hj)) c (by simp [hc]) hmc) (by
          rw [e1]
          intro c hc
          rw [hh c (by simp [hc])]
          have e : ∀ l : List (Bytes × Val), l.any (fun a => E.keyMatch a.1 c.1) = (l.map Prod.fst).any (fun a => E.keyMatch a c.1) := by
            intro l; simp [List.any_map, Function.comp_def]
          rw [e, e, e4]) hA2
      refine ⟨ku2, kvs2, ?_, ?_⟩
      · rw [hA1]
        cases hop : ans k x b with
        | custom =>
          rw [hop] at hy
          simp only [answered] at hy
          subst hy
          rw [modify_same hk0] at e2
          exact e2
        | replace =>
          rw [hop] at hy
          simp only [answered] at hy
          subst hy
          have hn : isNilV x = false := by
            have := hs2 hop
            cases x <;> first | rfl | exact absurd rfl this
          simp only [hn, Bool.false_eq_true, if_false]
          exact e2
        | normal =>
          rw [hop] at hy
          simp only [answered] at hy
          subst hy
          have hsc := (hs1 hop).same
          simp only [hsc.1, hsc.2, and_self, if_true]
          exact e2
      rw [e3, e1, hy]
      refine unionW_hit (both := fun k a b => answered (ans k a b) a b) hnx hm' ?_ hnr
      intro j a ha hj
      by_cases h : E.keyMatch a.1 k = true
      · exfalso
        have hmm := L.match_trans h (L.match_symm hm')
        have hmm' := L.match_symm hmm
        have hp := List.pairwise_iff_getElem.1 hd
        obtain ⟨hla, hea⟩ := List.getElem?_eq_some_iff.1 ha
        obtain ⟨_, hei⟩ := List.getElem?_eq_some_iff.1 hnx
        rcases Nat.lt_or_gt_of_ne hj with hlt' | hlt'
        · have := hp j i (by simpa using hla) (by simpa using hlt) hlt'
          simp only [List.getElem_map, hea, hei] at this
          rw [this] at hmm; cases hmm
        · have := hp i j (by simpa using hlt) (by simpa using hla) hlt'
          simp only [List.getElem_map, hea, hei] at this
          rw [this] at hmm'; cases hmm'
      · simpa using h

theorem answers_none (hit : Bytes → Bool) : ∀ ws, Answers none (fun _ _ _ => .normal) hit [] ws
  | [] => trivial
  | (k, b) :: r => by
    simp only [Answers]
    split
    · exact ⟨fun _ => rfl, answers_none hit r⟩
    · exact answers_none hit r

theorem Separate.off {h : Heap} {p q : Ptr} {v w : Val} {F G : List Ptr} (g : Good h (some p) v F) (g' : Good h (some q) w G) (ha : Separate h p q) : ∀ r ∈ G, r ∉ F := by
  intro r h1 h2
  have := (List.nodup_append.1 (g.apart g' ha).1).2.2 r h2 r h1
  exact this rfl

/-- After `v.MergeWith(w, nil)` the members of `v` are the union of those of `v` and `w`, and `w` is unchanged. Missing: containers, constants and
nulls of `v` under a common name, names of `w` still to be unescaped, repeated names, what `Clone` does not copy (C37), common nodes. -/
theorem C39_union_partial {E : Env} (L : KeyLaws E) {h : Heap} {p q : Ptr} {ku ku' : Bool} {kvs kvs' : List (Bytes × Val)} {F G : List Ptr}
    (g : Good h (some p) (.obj ku kvs) F) (gw : Good h (some q) (.obj ku' kvs') G) (ha : Separate h p q) (ho : Owns h q) (hO : Ordinary (.obj ku' kvs'))
    (hv : UniqueNames E (.obj ku kvs)) (hw : UniqueNames E (.obj ku' kvs')) (hn : members E (.obj ku' kvs') = kvs')
    (hs : ∀ a ∈ members E (.obj ku kvs), ∀ b ∈ kvs', E.keyMatch a.1 b.1 = true → Scalar a.2) (f : Nat) (hf : kvs'.length + heightM kvs' + 2 ≤ f) :
    ∃ h' ku2 kvs2 F', mergeWith E none f h (some p) (some q) = .ok h' ∧ Good h' (some p) (.obj ku2 kvs2) F' ∧
      members E (.obj ku2 kvs2) = unionM E.keyMatch (members E (.obj ku kvs)) (members E (.obj ku' kvs')) ∧ Good h' (some q) (.obj ku' kvs') G := by
  obtain ⟨ku2, kvs2, e1, e2⟩ := mergeM_union L (ask := none) (ans := fun _ _ _ => .normal)
    (hit := fun k => (members E (.obj ku kvs)).any (fun a => E.keyMatch a.1 k)) kvs' [] ku kvs hv (by unfold UniqueNames at hw; rw [hn] at hw; exact hw) hO
    (fun a ha b hb hm => ⟨fun _ => hs a ha b hb hm, nofun⟩) (fun _ _ => rfl) (answers_none _ _)
  have hd := Separate.off g gw ha
  obtain ⟨h', F', e3, u⟩ := mergeObject_spec E (OrdinaryM.same hO).2 (mf := none) (ask := none) trivial kvs' f 0 h [] ku kvs F ku2 kvs2 rfl (by omega) g gw hd (ho.copyable gw) e1
  refine ⟨h', ku2, kvs2, F', ?_, u.good, by rw [e2, hn]; rfl, gw.frame u.frame hd⟩
  simp only [mergeWith, show (h.mem p).dt = .object from rep_dt g.rep, show (h.mem q).dt = .object from rep_dt gw.rep]
  simpa [VT.ord] using e3

theorem keyMatch_rfl (E : Env) (k : Bytes) : E.keyMatch k k = true := by simp [Env.keyMatch]

/-- Every name of `old` and every name of `new` occurs in the union. -/
theorem unionM_names {E : Env} (old new : List (Bytes × Val)) (k : Bytes) (hk : k ∈ old.map Prod.fst ∨ k ∈ new.map Prod.fst) :
    ∃ a ∈ unionM E.keyMatch old new, E.keyMatch a.1 k = true := by
  have ho : ∀ a ∈ old, ∃ b ∈ unionM E.keyMatch old new, b.1 = a.1 := by
    intro a ha
    refine ⟨_, List.mem_append.2 (Or.inl (List.mem_map.2 ⟨a, ha, rfl⟩)), ?_⟩
    split <;> rfl
  rcases hk with hk | hk
  · obtain ⟨a, ha, rfl⟩ := List.mem_map.1 hk
    obtain ⟨b, hb, e⟩ := ho a ha
    exact ⟨b, hb, by rw [e]; exact keyMatch_rfl E _⟩
  · obtain ⟨a, ha, rfl⟩ := List.mem_map.1 hk
    by_cases hm : ∃ c ∈ old, E.keyMatch c.1 a.1 = true
    · obtain ⟨c, hc, hm⟩ := hm
      obtain ⟨b, hb, e⟩ := ho c hc
      exact ⟨b, hb, by rw [e]; exact hm⟩
    · refine ⟨a, List.mem_append.2 (Or.inr (List.mem_filter.2 ⟨ha, ?_⟩)), keyMatch_rfl E _⟩
      simp only [Bool.not_eq_true', List.any_eq_false]
      intro c hc h
      exact hm ⟨c, hc, h⟩

/-- After `v.MergeWith(w, nil)` every name of `v` and every name of `w` is found in `v`. Missing: as above. -/
theorem C39_present_partial {E : Env} (L : KeyLaws E) {h : Heap} {p q : Ptr} {ku ku' : Bool} {kvs kvs' : List (Bytes × Val)} {F G : List Ptr}
    (g : Good h (some p) (.obj ku kvs) F) (gw : Good h (some q) (.obj ku' kvs') G) (ha : Separate h p q) (ho : Owns h q) (hO : Ordinary (.obj ku' kvs'))
    (hv : UniqueNames E (.obj ku kvs)) (hw : UniqueNames E (.obj ku' kvs')) (hn : members E (.obj ku' kvs') = kvs')
    (hs : ∀ a ∈ members E (.obj ku kvs), ∀ b ∈ kvs', E.keyMatch a.1 b.1 = true → Scalar a.2) (f : Nat) (hf : kvs'.length + heightM kvs' + 2 ≤ f) :
    ∃ h' ku2 kvs2 F', mergeWith E none f h (some p) (some q) = .ok h' ∧ Good h' (some p) (.obj ku2 kvs2) F' ∧
      ∀ k, k ∈ (members E (.obj ku kvs)).map Prod.fst ∨ k ∈ (members E (.obj ku' kvs')).map Prod.fst →
        ∃ a ∈ members E (.obj ku2 kvs2), E.keyMatch a.1 k = true := by
  obtain ⟨h', ku2, kvs2, F', e, g', em, -⟩ := C39_union_partial L g gw ha ho hO hv hw hn hs f hf
  exact ⟨h', ku2, kvs2, F', e, g', fun k hk => by rw [em]; exact unionM_names _ _ k hk⟩

/-- The union is not trivial: `{"a":1,"b":2}` and `{"b":3,"c":4}` give `{"a":1,"b":[2,3],"c":4}`. -/
example : unionM envEx.keyMatch [([97], .int 0 1), ([98], .int 0 2)] [([98], .int 0 3), ([99], .int 0 4)] =
    [([97], .int 0 1), ([98], .arr [.int 0 2, .int 0 3]), ([99], .int 0 4)] := by rfl

/-- `{"a":{}}` merged with `{"a":{},"b":1}`: the key `b` is not there. -/
theorem C39_container_counterexample :
    let r := newObject (Heap.init id) false none
    let a := newObject r.2 false none
    let h := setKeyValue envEx a.2 r.1 [97] (some a.1)
    let s := newObject h false none
    let b := newObject s.2 false none
    let h := setKeyValue envEx b.2 s.1 [97] (some b.1)
    (setKeyInt envEx h s.1 [98] 1).bind (fun h => (mergeWith envEx none 99 h (some r.1) (some s.1)).bind (fun h' => .ok ((h'.mem r.1).kvs.map Prod.fst, (h'.mem s.1).kvs.map Prod.fst)))
      = .ok ([[97]], [[97], [98]]) := by decide

/-- `{"a":[1]}` merged with `{"a":[2],"b":1}`: neither is the array changed nor is the key `b` there. -/
theorem C39_array_counterexample :
    let r := newObject (Heap.init id) false none
    let a := newArray r.2 false none
    let h := setKeyValue envEx (setIndexInt a.2 a.1 0 1) r.1 [97] (some a.1)
    let s := newObject h false none
    let b := newArray s.2 false none
    let h := setKeyValue envEx (setIndexInt b.2 b.1 0 2) s.1 [97] (some b.1)
    (setKeyInt envEx h s.1 [98] 1).bind (fun h => (mergeWith envEx none 99 h (some r.1) (some s.1)).bind (fun h' =>
      .ok ((h'.mem r.1).kvs.map Prod.fst, (h'.mem a.1).arr.length, (h'.mem s.1).kvs.map Prod.fst)))
      = .ok ([[97]], 1, [[97], [98]]) := by decide

/-- `{"a":true}` merged with `{"a":1}`: the 1 is lost in the hidden array of the constant `true`, which every document shares. -/
theorem C39_constant_counterexample :
    let r := newObject (Heap.init id) false none
    let h := setKeyValue envEx r.2 r.1 [97] (some trueP)
    let s := newObject h false none
    (setKeyInt envEx s.2 s.1 [97] 1).bind (fun h => (mergeWith envEx none 99 h (some r.1) (some s.1)).bind (fun h' =>
      .ok ((h'.mem r.1).kvs, (h'.mem trueP).dt, (h'.mem trueP).arr.length)))
      = .ok ([([97], some trueP)], .true, 2) := by decide

/-- A member that `SetBool` made True is not copied before it becomes an array: the array contains itself. -/
theorem C39_cycle_counterexample :
    let r := newObject (Heap.init id) false none
    let a := newValue r.2 .int
    let h := setKeyValue envEx (setBool a.2 a.1 true) r.1 [97] (some a.1)
    let s := newObject h false none
    (setKeyInt envEx s.2 s.1 [97] 1).bind (fun h => (mergeWith envEx none 99 h (some r.1) (some s.1)).bind (fun h' =>
      .ok ((h'.mem r.1).kvs, (h'.mem a.1).dt, (h'.mem a.1).arr.head?)))
      = .ok ([([97], some a.1)], .array, some (some a.1)) := by decide

/-- A name of `w` that is still to be unescaped, here `\/`, gets a wrong name in `v`: `/` is found in `w` but not in `v`. -/
theorem C39_escape_counterexample :
    let r := newObject (Heap.init id) false none
    let s := newObject r.2 false none
    let b := newValue s.2 .int
    let h := b.2.upd s.1 (fun n => { n with ku := false, kvs := [([92, 47], some b.1)] })
    (mergeWith envEx none 99 h (some r.1) (some s.1)).bind (fun h' =>
      .ok ((objIndex envEx h' r.1 [47]).1, (objIndex envEx h' s.1 [47]).1)) = .ok (none, some 0) := by decide

/-! ## C40 -/

/-- After `v.MergeWith(w, f)` for arrays `v` holds its old elements followed by those of `w` that are Equal (C38) to none of them; `w` is unchanged.
Missing: strings and names still to be unescaped, arrays within arrays that make `Equal` panic, what `Clone` does not copy (C37), common nodes. -/
theorem C40_union_partial {E : Env} {h : Heap} {p q : Ptr} {ys xs : List Val} {F G : List Ptr} (mf : Option MergeFunc) (g : Good h (some p) (.arr ys) F)
    (gw : Good h (some q) (.arr xs) G) (ha : Separate h p q) (ho : Owns h q) (hO : Ordinary (.arr xs)) (sy : SettledL ys) (sx : SettledL xs)
    (ht : ∀ x ∈ xs, ∀ y ∈ ys, ArraysFit x y) (f : Nat) (hf : heightL xs ≤ f) :
    ∃ h' F', mergeWith E mf f h (some p) (some q) = .ok h' ∧ Good h' (some p) (.arr (ys ++ xs.filter (fun x => ys.all (fun y => decide (eqVal E x y = .ok false))))) F' ∧
      Good h' (some q) (.arr xs) G := by
  have hd := Separate.off g gw ha
  have htot : ∀ x ∈ xs, ∀ y ∈ ys, ∃ b, eqVal E x y = .ok b := fun x hx y hy => eqVal_total x y (ht x hx y hy)
  obtain ⟨h', F', e, u⟩ := mergeWith_arr (E := E) mf g gw sy sx (ho.copyable gw) (OrdinaryL.same hO).2 hf htot hd
  refine ⟨h', F', e, ?_, gw.frame u.frame hd⟩
  have hsub : ∀ {l : List Val} (P : Val → Bool), OrdinaryL l → OrdinaryL (l.filter P) := by
    intro l P
    induction l with
    | nil => intro _; trivial
    | cons a l ih =>
      rintro ⟨h1, h2⟩
      rw [List.filter_cons]
      split
      · exact ⟨h1, ih h2⟩
      · exact ih h2
  have he : newOnes E ys xs = xs.filter (fun x => ys.all (fun y => decide (eqVal E x y = .ok false))) := by
    apply List.filter_congr
    intro x hx
    rw [Bool.eq_iff_iff, List.all_eq_true, List.all_eq_true]
    refine forall_congr' fun y => forall_congr' fun hy => ?_
    obtain ⟨b, hb⟩ := htot x hx y hy
    rw [hb]
    cases b <;> simp
  have := u.good
  rw [he, (OrdinaryL.same (hsub _ hO)).1] at this
  exact this

/-- Merging with an array that has a nil element panics. -/
theorem C40_nil_counterexample :
    let r := newArray (Heap.init id) false none
    let s := newArray r.2 false none
    let h := setIndexValue s.2 s.1 0 none
    (mergeWith envEx none 99 h (some r.1) (some s.1)).bind (fun _ => .ok ()) = .panic := by decide

/-- `[[]]` merged with `[[1]]` panics, in `Equal`. -/
theorem C40_nested_counterexample :
    let r := newArray (Heap.init id) false none
    let a := newArray r.2 false none
    let h := setIndexValue a.2 r.1 0 (some a.1)
    let s := newArray h false none
    let b := newArray s.2 false none
    let h := setIndexValue (setIndexInt b.2 b.1 0 1) s.1 0 (some b.1)
    (mergeWith envEx none 99 h (some r.1) (some s.1)).bind (fun _ => .ok ()) = .panic := by decide

/-- `[]` is Equal to `[1]`, so that `[[1]]` merged with `[[]]` stays `[[1]]`. -/
theorem C40_shorter_counterexample :
    let r := newArray (Heap.init id) false none
    let a := newArray r.2 false none
    let h := setIndexValue (setIndexInt a.2 a.1 0 1) r.1 0 (some a.1)
    let s := newArray h false none
    let b := newArray s.2 false none
    let h := setIndexValue b.2 s.1 0 (some b.1)
    (mergeWith envEx none 99 h (some r.1) (some s.1)).bind (fun h' => .ok (h'.mem r.1).arr.length) = .ok 1 := by decide

/-- `w` is changed: its unparsed string becomes an ordinary one. -/
theorem C40_raw_counterexample :
    let h := twoStrings [97] [92, 47]
    let r := newArray h false none
    let h := setIndexValue r.2 r.1 0 (some 5)
    let s := newArray h false none
    let h := setIndexValue s.2 s.1 0 (some 6)
    (mergeWith envEx none 99 h (some r.1) (some s.1)).bind (fun h' => .ok ((h.mem 6).dt, (h.mem 6).str, (h'.mem 6).dt, (h'.mem 6).str)) = .ok (.rawString, [92, 47], .string, [47]) := by decide

/-- The hypotheses can be met: `[1,2]` and `["a",1]`. -/
example : SettledL [.str [97], .int 0 1] ∧ Ordinary (.arr [.str [97], .int 0 1]) ∧
    [Val.str [97], .int 0 1].filter (fun x => [Val.int 0 1, .int 0 2].all (fun y => decide (eqVal envEx x y = .ok false))) = [.str [97]] := by
  refine ⟨?_, ?_, ?_⟩
  · simp [SettledL, Settled]
  · simp [Ordinary, OrdinaryL]
  · decide

/-! ## C90: the merge function -/

theorem answers_values (ask : Val → Val → MergeOp) (hit : Bytes → Bool) : ∀ path ws, Answers (some (fun _ => ask)) (fun _ => ask) hit path ws
  | _, [] => trivial
  | path, (k, b) :: r => by
    simp only [Answers]
    split
    · exact ⟨fun _ => rfl, answers_values ask hit _ r⟩
    · exact answers_values ask hit _ r

theorem answers_nohit (ask : Option (Bytes → Val → Val → MergeOp)) (ans : Bytes → Val → Val → MergeOp) {hit : Bytes → Bool} :
    ∀ path ws, (∀ b ∈ ws, hit b.1 = false) → Answers ask ans hit path ws
  | _, [], _ => trivial
  | path, (k, b) :: r, h => by
    simp only [Answers, h (k, b) (by simp), Bool.false_eq_true, if_false]
    exact answers_nohit ask ans _ r (fun b hb => h b (by simp [hb]))

theorem answers_single (ask : Bytes → Val → Val → MergeOp) {hit : Bytes → Bool} :
    ∀ ws, ws.Pairwise (fun b c => ¬(hit b.1 = true ∧ hit c.1 = true)) → Answers (some ask) ask hit [] ws
  | [], _ => trivial
  | (k, b) :: r, h => by
    obtain ⟨h1, h2⟩ := List.pairwise_cons.1 h
    simp only [Answers]
    split
    · rename_i hk
      refine ⟨fun _ => by simp [mergePath], answers_nohit _ _ _ r (fun c hc => ?_)⟩
      have := h1 c hc
      simpa [hk] using this
    · exact answers_single ask r h2

/-- The name occurs in both objects. -/
def Common (E : Env) (v : Val) (k : Bytes) : Bool := (members E v).any (fun a => E.keyMatch a.1 k)

theorem merge_answers {E : Env} (L : KeyLaws E) {h : Heap} {p q : Ptr} {ku ku' : Bool} {kvs kvs' : List (Bytes × Val)} {F G : List Ptr}
    (g : Good h (some p) (.obj ku kvs) F) (gw : Good h (some q) (.obj ku' kvs') G) (ha : Separate h p q) (ho : Owns h q) (hO : Ordinary (.obj ku' kvs'))
    (hv : UniqueNames E (.obj ku kvs)) (hw : UniqueNames E (.obj ku' kvs')) (hn : members E (.obj ku' kvs') = kvs')
    {mf : MergeFunc} {ask : Bytes → Val → Val → MergeOp} (hq : Asks (some mf) (some ask)) {ans : Bytes → Val → Val → MergeOp}
    (hA : Answers (some ask) ans (Common E (.obj ku kvs)) [] kvs')
    (hs : ∀ a ∈ members E (.obj ku kvs), ∀ b ∈ kvs', E.keyMatch a.1 b.1 = true → (ans b.1 a.2 b.2 = .normal → Scalar a.2) ∧ (ans b.1 a.2 b.2 = .replace → a.2 ≠ .nil))
    (f : Nat) (hf : kvs'.length + heightM kvs' + 2 ≤ f) :
    ∃ h' ku2 kvs2 F', mergeWith E (some mf) f h (some p) (some q) = .ok h' ∧ Good h' (some p) (.obj ku2 kvs2) F' ∧
      members E (.obj ku2 kvs2) = unionW E.keyMatch (fun k a b => answered (ans k a b) a b) (members E (.obj ku kvs)) (members E (.obj ku' kvs')) ∧
      Good h' (some q) (.obj ku' kvs') G := by
  obtain ⟨ku2, kvs2, e1, e2⟩ := mergeM_union L (ask := some ask) (ans := ans) (hit := Common E (.obj ku kvs)) kvs' [] ku kvs hv
    (by unfold UniqueNames at hw; rw [hn] at hw; exact hw) hO hs (fun _ _ => rfl) hA
  have hd := Separate.off g gw ha
  obtain ⟨h', F', e3, u⟩ := mergeObject_spec E (OrdinaryM.same hO).2 hq kvs' f 0 h [] ku kvs F ku2 kvs2 rfl (by omega) g gw hd (ho.copyable gw) e1
  refine ⟨h', ku2, kvs2, F', ?_, u.good, by rw [e2, hn], gw.frame u.frame hd⟩
  simp only [mergeWith, show (h.mem p).dt = .object from rep_dt g.rep, show (h.mem q).dt = .object from rep_dt gw.rep]
  simpa [VT.ord] using e3

/-- A merge function that decides on the two values: members for which it answers Custom stay, those for which it answers Replace become copies of the
new value, those for which it answers Normal the list of both; names of only one object are treated as in C39. Containers are allowed except under
Normal. Missing: as C39, functions that change the values they are given, functions that look at the path (see below). -/
theorem C90_values_partial {E : Env} (L : KeyLaws E) {h : Heap} {p q : Ptr} {ku ku' : Bool} {kvs kvs' : List (Bytes × Val)} {F G : List Ptr}
    (g : Good h (some p) (.obj ku kvs) F) (gw : Good h (some q) (.obj ku' kvs') G) (ha : Separate h p q) (ho : Owns h q) (hO : Ordinary (.obj ku' kvs'))
    (hv : UniqueNames E (.obj ku kvs)) (hw : UniqueNames E (.obj ku' kvs')) (hn : members E (.obj ku' kvs') = kvs')
    {mf : MergeFunc} {ask : Val → Val → MergeOp}
    (hq : ∀ h path x y vx vy F G, Good h x vx F → Good h y vy G → mf h path x y = ask vx vy)
    (hs : ∀ a ∈ members E (.obj ku kvs), ∀ b ∈ kvs', E.keyMatch a.1 b.1 = true → (ask a.2 b.2 = .normal → Scalar a.2) ∧ (ask a.2 b.2 = .replace → a.2 ≠ .nil))
    (f : Nat) (hf : kvs'.length + heightM kvs' + 2 ≤ f) :
    ∃ h' ku2 kvs2 F', mergeWith E (some mf) f h (some p) (some q) = .ok h' ∧ Good h' (some p) (.obj ku2 kvs2) F' ∧
      members E (.obj ku2 kvs2) = unionW E.keyMatch (fun _ a b => answered (ask a b) a b) (members E (.obj ku kvs)) (members E (.obj ku' kvs')) ∧
      Good h' (some q) (.obj ku' kvs') G :=
  merge_answers L g gw ha ho hO hv hw hn (ask := fun _ => ask) hq (answers_values ask _ [] kvs') hs f hf

/-- The same for a function that looks at the path, if only one name is common: the path is that name. -/
theorem C90_single_partial {E : Env} (L : KeyLaws E) {h : Heap} {p q : Ptr} {ku ku' : Bool} {kvs kvs' : List (Bytes × Val)} {F G : List Ptr}
    (g : Good h (some p) (.obj ku kvs) F) (gw : Good h (some q) (.obj ku' kvs') G) (ha : Separate h p q) (ho : Owns h q) (hO : Ordinary (.obj ku' kvs'))
    (hv : UniqueNames E (.obj ku kvs)) (hw : UniqueNames E (.obj ku' kvs')) (hn : members E (.obj ku' kvs') = kvs')
    {mf : MergeFunc} {ask : Bytes → Val → Val → MergeOp}
    (hq : ∀ h path x y vx vy F G, Good h x vx F → Good h y vy G → mf h path x y = ask path vx vy)
    (h1 : kvs'.Pairwise (fun b c => ¬(Common E (.obj ku kvs) b.1 = true ∧ Common E (.obj ku kvs) c.1 = true)))
    (hs : ∀ a ∈ members E (.obj ku kvs), ∀ b ∈ kvs', E.keyMatch a.1 b.1 = true → (ask b.1 a.2 b.2 = .normal → Scalar a.2) ∧ (ask b.1 a.2 b.2 = .replace → a.2 ≠ .nil))
    (f : Nat) (hf : kvs'.length + heightM kvs' + 2 ≤ f) :
    ∃ h' ku2 kvs2 F', mergeWith E (some mf) f h (some p) (some q) = .ok h' ∧ Good h' (some p) (.obj ku2 kvs2) F' ∧
      members E (.obj ku2 kvs2) = unionW E.keyMatch (fun k a b => answered (ask k a b) a b) (members E (.obj ku kvs)) (members E (.obj ku' kvs')) ∧
      Good h' (some q) (.obj ku' kvs') G :=
  merge_answers L g gw ha ho hO hv hw hn (ask := ask) hq (answers_single ask kvs' h1) hs f hf

/-- Replace for the numbers, Custom for the rest: `{"a":1,"b":"x"}` and `{"b":3,"a":4,"c":5}`. -/
example : unionW envEx.keyMatch (fun _ a b => answered (match a with | .int _ _ => .replace | _ => .custom) a b) [([97], .int 0 1), ([98], .str [120])]
    [([98], .int 0 3), ([97], .int 0 4), ([99], .int 0 5)] = [([97], .int 0 4), ([98], .str [120]), ([99], .int 0 5)] := by rfl

/-- The same in the memory. -/
example :
    let r := newObject (Heap.init id) false none
    let s := newObject r.2 false none
    let mf : MergeFunc := fun h _ a _ => if (a.map (fun a => (h.mem a).dt)) = some .int then .replace else .custom
    ((setKeyInt envEx s.2 r.1 [97] 1).bind fun h => (setKeyString envEx h r.1 [98] [120]).bind fun h => (setKeyInt envEx h s.1 [98] 3).bind fun h =>
      (setKeyInt envEx h s.1 [97] 4).bind fun h => (setKeyInt envEx h s.1 [99] 5).bind fun h =>
      (mergeWith envEx (some mf) 99 h (some r.1) (some s.1)).bind (fun h' =>
        .ok ((h'.mem r.1).kvs.map (fun kv => (kv.1, (kv.2.map (fun q => ((h'.mem q).dt, getInt envEx (h'.mem q))))))))) =
      .ok [([97], some (.int, 4)), ([98], some (.string, 0)), ([99], some (.int, 5))] := by decide +kernel

/-- A function that keeps the member `b` and replaces the others, for `{"a":1,"b":2}` and `{"a":3,"b":4}`: `b` is replaced, since the path given for
it is `a/b`. -/
theorem C90_path_counterexample :
    let r := newObject (Heap.init id) false none
    let s := newObject r.2 false none
    let mf : MergeFunc := fun _ path _ _ => if path = [98] then .custom else .replace
    ((setKeyInt envEx s.2 r.1 [97] 1).bind fun h => (setKeyInt envEx h r.1 [98] 2).bind fun h => (setKeyInt envEx h s.1 [97] 3).bind fun h =>
      (setKeyInt envEx h s.1 [98] 4).bind fun h => (mergeWith envEx (some mf) 99 h (some r.1) (some s.1)).bind (fun h' =>
        .ok ((h'.mem r.1).kvs.map (fun kv => (kv.1, (kv.2.map (fun q => getInt envEx (h'.mem q)))))))) = .ok [([97], some 3), ([98], some 4)] ∧
    ((setKeyInt envEx s.2 r.1 [97] 1).bind fun h => (setKeyInt envEx h r.1 [98] 2).bind fun h => (setKeyInt envEx h s.1 [97] 3).bind fun h =>
      (setKeyInt envEx h s.1 [98] 4).bind fun h => (mergeWith envEx (some (fun _ path _ _ => if path = [97, 47, 98] then .custom else .replace)) 99 h (some r.1) (some s.1)).bind
        (fun h' => .ok ((h'.mem r.1).kvs.map (fun kv => (kv.1, (kv.2.map (fun q => getInt envEx (h'.mem q)))))))) = .ok [([97], some 3), ([98], some 2)] := by
  decide +kernel

/-- Replace for a member that is nil: a panic. -/
theorem C90_nil_counterexample :
    let r := newObject (Heap.init id) false none
    let s := newObject r.2 false none
    let h := s.2.upd r.1 (fun n => { n with kvs := [([97], none)] })
    ((setKeyInt envEx h s.1 [97] 3).bind fun h => mergeWith envEx (some (fun _ _ _ _ => .replace)) 99 h (some r.1) (some s.1)) = .panic := rfl

/-! ## C91: different kinds -/

/-- Both values are objects or both are arrays. -/
def Mergeable : Val → Val → Prop
  | .obj .., .obj .. => True
  | .arr _, .arr _ => True
  | _, _ => False

/-- `MergeWith` changes nothing and does not fail unless both values are objects or both are arrays; in particular if one of them is nil. -/
theorem C91_other (E : Env) (mf : Option MergeFunc) (f : Nat) {h : Heap} {a b : Option Ptr} {v w : Val} {F G : List Ptr} (g : Good h a v F) (gw : Good h b w G)
    (hm : ¬ Mergeable v w) : mergeWith E mf f h a b = .ok h := by
  cases a with
  | none => cases b <;> rfl
  | some p =>
    cases b with
    | none => rfl
    | some q =>
      have hp := rep_dt g.rep
      have hq := rep_dt gw.rep
      have np := rep_ne_nil g.rep
      have nq := rep_ne_nil gw.rep
      simp only [mergeWith, hp, hq]
      rw [if_pos]
      cases v <;> first | exact absurd rfl np | (cases w <;> first | exact absurd rfl nq | exact absurd trivial hm | simp [Val.vt, VT.ord])

/-- An array and an object. -/
example : ¬ Mergeable (.arr [.null]) (.obj true []) ∧ ¬ Mergeable (.int 0 1) (.int 0 2) ∧ Mergeable (.arr []) (.arr [.null]) := by simp [Mergeable]

end Dxs.Heap
