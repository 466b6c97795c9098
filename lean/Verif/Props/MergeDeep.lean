import Verif.Heap.MergeDeep
import Verif.Props.Merge

/-!
# C110: MergeWith where names of containers are common
-/

namespace Dxs.Heap

/-! ## The specification -/

/-- Objects. -/
def IsObj : Val → Prop
  | .obj _ _ => True
  | _ => False

/-- Objects and arrays. -/
def Container : Val → Prop
  | .obj _ _ | .arr _ => True
  | _ => False

/-- Neither an object nor a constant nor nil: arrays, strings, numbers, times, binaries. -/
def NoMembers : Val → Prop
  | .arr _ | .str _ | .raw _ | .int _ _ | .float _ | .double _ | .dateTime _ | .bin _ _ | .exbin _ _ => True
  | _ => False

/-- The members `new` have the name of a member of `old` only where that one is a scalar. -/
def OnScalars (E : Env) (old new : List (Bytes × Val)) : Prop := ∀ a ∈ old, ∀ b ∈ new, E.keyMatch a.1 b.1 = true → Scalar a.2

/-- What becomes of the object `v` when the members of `w` are merged into it in order:
* all of them are taken up if they meet no container;
* otherwise those before the first that does; this one, if both are objects, is merged in the same way; the rest of `w` is not looked at;
* the same if it is not an object, but then nothing else happens. -/
inductive Merged (E : Env) : Val → Val → Val → Prop
  | all {v w r} (hs : OnScalars E (members E v) (members E w)) (ho : IsObj r)
      (hr : members E r = unionM E.keyMatch (members E v) (members E w)) : Merged E v w r
  | into {v w r ws k b rest n x y} {i : Nat} (hw : members E w = ws ++ (k, b) :: rest) (hs : OnScalars E (members E v) ws)
      (hi : (members E v)[i]? = some (n, x)) (hm : E.keyMatch n k = true) (hx : IsObj x) (hb : IsObj b) (hy : Merged E x b y) (ho : IsObj r)
      (hr : members E r = (unionM E.keyMatch (members E v) ws).modify i (fun a => (a.1, y))) : Merged E v w r
  | stop {v w r ws k b rest n x} {i : Nat} (hw : members E w = ws ++ (k, b) :: rest) (hs : OnScalars E (members E v) ws)
      (hi : (members E v)[i]? = some (n, x)) (hm : E.keyMatch n k = true) (hx : Container x) (hb : NoMembers b) (ho : IsObj r)
      (hr : members E r = unionM E.keyMatch (members E v) ws) : Merged E v w r

mutual
/-- Names are unique, those of `w` are not to be unescaped, and no constant, nil or binary of `v`, no constant of `w` for a container of `v` and no
object of `w` for an array of `v` has a common name. -/
def Joins (E : Env) : Val → Val → Prop
  | v, .obj ku kvs => UniqueNames E v ∧ UniqueNames E (.obj ku kvs) ∧ members E (.obj ku kvs) = kvs ∧ JoinsM E (members E v) kvs
  | _, b => NoMembers b
/-- The same for the members of `w`. -/
def JoinsM (E : Env) : List (Bytes × Val) → List (Bytes × Val) → Prop
  | _, [] => True
  | old, (k, b) :: r => (∀ a ∈ old, E.keyMatch a.1 k = true → Scalar a.2 ∨ (IsObj a.2 ∧ Joins E a.2 b) ∨ (Container a.2 ∧ NoMembers b)) ∧ JoinsM E old r
end

/-! ## The proof -/

theorem fitsM_mem {E : Env} {old : List (Bytes × Val)} : ∀ {ws : List (Bytes × Val)}, JoinsM E old ws → ∀ kb ∈ ws, ∀ a ∈ old, E.keyMatch a.1 kb.1 = true →
    Scalar a.2 ∨ (IsObj a.2 ∧ Joins E a.2 kb.2) ∨ (Container a.2 ∧ NoMembers kb.2)
  | [], _, kb, h => by cases h
  | (k, b) :: r, hf, kb, h => by
    rw [JoinsM] at hf
    rcases List.mem_cons.1 h with rfl | h
    · exact hf.1
    · exact fitsM_mem hf.2 kb h

theorem noMembers_ord {b : Val} (h : NoMembers b) : 1 ≤ b.vt.ord ∧ b.vt.ord ≤ 9 := by
  cases b <;> simp [NoMembers] at h <;> simp [Val.vt, VT.ord]

/-- As long as only scalars are met, the members are taken up one after the other. -/
theorem mergeD_append {E : Env} {ku2 : Bool} {kvs2 : List (Bytes × Val)} (r : List (Bytes × Val)) : ∀ (ws : List (Bytes × Val)) (ku : Bool) (kvs : List (Bytes × Val)),
    mergeM E none [] ku kvs ws = some (ku2, kvs2) → mergeD E none [] ku kvs (ws ++ r) = mergeD E none [] ku2 kvs2 r := by
  intro ws
  induction ws with
  | nil => intro ku kvs e; cases e; rfl
  | cons kb ws ih =>
    obtain ⟨k, b⟩ := kb
    intro ku kvs e
    simp only [mergeM, Option.isSome_none, Bool.false_eq_true, if_false, Option.map_none, Option.getD_none] at e
    rw [List.cons_append, mergeD]
    simp only [Option.isSome_none, Bool.false_eq_true, if_false, Option.map_none, Option.getD_none]
    cases hj : (indexByName E ku kvs k).1 with
    | none => rw [hj] at e; exact ih _ _ e
    | some i =>
      rw [hj] at e
      simp only at e ⊢
      cases hx : (indexByName E ku kvs k).2.2[i]? with
      | none => rw [hx] at e; cases e
      | some a =>
        rw [hx] at e
        simp only at e ⊢
        split at e
        · rename_i hc
          rw [if_pos hc]
          exact ih _ _ e
        · cases e

/-- The first member for which something is the case. -/
theorem split_first {α : Type} (p : α → Prop) : ∀ l : List α, (∀ a ∈ l, ¬p a) ∨ ∃ l1 a l2, l = l1 ++ a :: l2 ∧ (∀ b ∈ l1, ¬p b) ∧ p a
  | [] => Or.inl (by simp)
  | a :: l => by
    by_cases h : p a
    · exact Or.inr ⟨[], a, l, rfl, by simp, h⟩
    · rcases split_first p l with h1 | ⟨l1, b, l2, rfl, h1, h2⟩
      · exact Or.inl (by simpa [h] using h1)
      · exact Or.inr ⟨a :: l1, b, l2, rfl, by simpa [h] using h1, h2⟩

theorem ordinaryM_append : ∀ {a b : List (Bytes × Val)}, OrdinaryM (a ++ b) → OrdinaryM a ∧ OrdinaryM b
  | [], _, h => ⟨trivial, h⟩
  | (k, v) :: a, b, h => by
    simp only [List.cons_append, OrdinaryM] at h ⊢
    obtain ⟨h1, h2⟩ := ordinaryM_append h.2
    exact ⟨⟨h.1, h1⟩, h2⟩

/-- Names of the union. -/
theorem unionM_fst (m : Bytes → Bytes → Bool) (old new : List (Bytes × Val)) :
    (unionM m old new).map Prod.fst = old.map Prod.fst ++ (new.filter (fun b => !old.any (fun a => m a.1 b.1))).map Prod.fst := by
  unfold unionM unionW
  rw [List.map_append, List.map_map]
  congr 1
  apply List.map_congr_left
  intro a _
  simp only [Function.comp_apply]
  split <;> rfl

theorem unionM_distinct {E : Env} {old new : List (Bytes × Val)} (ho : Assoc.Distinct E.keyMatch old) (hn : Assoc.Distinct E.keyMatch new) :
    Assoc.Distinct E.keyMatch (unionM E.keyMatch old new) := by
  unfold Assoc.Distinct at *
  rw [unionM_fst, List.pairwise_append]
  refine ⟨ho, List.Pairwise.sublist (List.Sublist.map _ List.filter_sublist) hn, ?_⟩
  intro a ha b hb
  simp only [List.mem_map, List.mem_filter] at ha hb
  obtain ⟨a, ha, rfl⟩ := ha
  obtain ⟨b, ⟨-, hb⟩, rfl⟩ := hb
  simp only [Bool.not_eq_true', List.any_eq_false] at hb
  simpa using hb a ha

/-- A member of `old` whose name none of `new` has stays where it is. -/
theorem unionM_at {m : Bytes → Bytes → Bool} {old new : List (Bytes × Val)} {i : Nat} {a : Bytes × Val} (hi : old[i]? = some a) (hn : ∀ b ∈ new, m a.1 b.1 = false) :
    (unionM m old new)[i]? = some a := by
  unfold unionM unionW
  have hlt : i < old.length := (List.getElem?_eq_some_iff.1 hi).1
  rw [List.getElem?_append_left (by simpa using hlt), List.getElem?_map, hi]
  have h1 : new.find? (fun b => m a.1 b.1) = none := List.find?_eq_none.2 (fun c hc => by simp [hn c hc])
  simp [h1]

theorem find_distinct {E : Env} (L : KeyLaws E) {l : List (Bytes × Val)} (hd : Assoc.Distinct E.keyMatch l) {i : Nat} {a : Bytes × Val} (hi : l[i]? = some a) {k : Bytes}
    (hk : E.keyMatch a.1 k = true) : l.findIdx? (fun kv => E.keyMatch kv.1 k) = some i := by
  obtain ⟨hlt, hei⟩ := List.getElem?_eq_some_iff.1 hi
  rw [List.findIdx?_eq_some_iff_getElem]
  refine ⟨hlt, by rw [hei]; exact hk, ?_⟩
  intro j hj
  have hp := List.pairwise_iff_getElem.1 hd j i (by simp; omega) (by simpa using hlt) hj
  simp only [List.getElem_map, hei] at hp
  intro hm
  have := L.match_trans hm (L.match_symm hk)
  rw [hp] at this
  cases this

/-- What `mergeObject` does is what the specification says. -/
theorem mergeDV_merged {E : Env} (L : KeyLaws E) : ∀ (n : Nat) (w : Val) (ku : Bool) (kvs : List (Bytes × Val)), sizeOf w ≤ n → IsObj w → Ordinary w → Joins E (.obj ku kvs) w →
    ∃ ku2 kvs2, mergeDV E none [] ku kvs w = some (ku2, kvs2) ∧ Merged E (.obj ku kvs) w (.obj ku2 kvs2) := by
  intro n
  induction n with
  | zero => intro w ku kvs hn hw; cases w <;> simp at hn
  | succ n ih =>
    intro w ku kvs hn hw hO hF
    cases w with
    | obj ku' kvs' =>
      rw [Joins] at hF
      obtain ⟨hd, hdw, hmw, hF⟩ := hF
      rw [mergeDV]
      have hdw' : Assoc.Distinct E.keyMatch kvs' := by unfold UniqueNames at hdw; rw [hmw] at hdw; exact hdw
      rcases split_first (fun kb : Bytes × Val => ∃ a ∈ members E (.obj ku kvs), E.keyMatch a.1 kb.1 = true ∧ ¬Scalar a.2) kvs' with h | ⟨ws, ⟨k, b⟩, rest, rfl, h1, h2⟩
      · have hs : OnScalars E (members E (.obj ku kvs)) kvs' := by
          intro a ha b hb hm
          exact Classical.not_not.1 (fun hns => h b hb ⟨a, ha, hm, hns⟩)
        obtain ⟨ku2, kvs2, e1, e2⟩ := mergeM_union L (ask := none) (ans := fun _ _ _ => .normal)
          (hit := fun k => (members E (.obj ku kvs)).any (fun a => E.keyMatch a.1 k)) kvs' [] ku kvs hd hdw' hO
          (fun a ha b hb hm => ⟨fun _ => hs a ha b hb hm, nofun⟩) (fun _ _ => rfl) (answers_none _ _)
        have := mergeD_append [] kvs' ku kvs e1
        rw [List.append_nil] at this
        exact ⟨ku2, kvs2, by rw [this, mergeD], .all (by rw [hmw]; exact hs) trivial (by rw [hmw]; exact e2)⟩
      · have hs : OnScalars E (members E (.obj ku kvs)) ws := by
          intro a ha b hb hm
          exact Classical.not_not.1 (fun hns => h1 b hb ⟨a, ha, hm, hns⟩)
        obtain ⟨⟨nm, x⟩, ha, hm, hns⟩ := h2
        simp only at hm hns
        obtain ⟨i, hi⟩ := List.getElem?_of_mem ha
        obtain ⟨hOw, hOb⟩ := ordinaryM_append hO
        simp only [OrdinaryM] at hOb
        have hdd := hdw'
        unfold Assoc.Distinct at hdd
        rw [List.map_append, List.pairwise_append] at hdd
        obtain ⟨hd1, -, hd2⟩ := hdd
        have hdk : ∀ c ∈ ws, E.keyMatch nm c.1 = false := by
          intro c hc
          have h3 : E.keyMatch c.1 k = false := hd2 c.1 (List.mem_map.2 ⟨c, hc, rfl⟩) k (by simp)
          by_cases h : E.keyMatch nm c.1 = true
          · have := L.match_trans (L.match_symm h) hm
            rw [h3] at this
            cases this
          · simpa using h
        obtain ⟨ku1, kvs1, e1, e2⟩ := mergeM_union L (ask := none) (ans := fun _ _ _ => .normal)
          (hit := fun k => (members E (.obj ku kvs)).any (fun a => E.keyMatch a.1 k)) ws [] ku kvs hd hd1 hOw
          (fun a ha b hb hm => ⟨fun _ => hs a ha b hb hm, nofun⟩) (fun _ _ => rfl) (answers_none _ _)
        have e2 : members E (.obj ku1 kvs1) = unionM E.keyMatch (members E (.obj ku kvs)) ws := e2
        rw [mergeD_append _ ws ku kvs e1, mergeD]
        simp only [Option.isSome_none, Bool.false_eq_true, if_false, Option.map_none, Option.getD_none]
        have hdu : Assoc.Distinct E.keyMatch (members E (.obj ku1 kvs1)) := by rw [e2]; exact unionM_distinct hd hd1
        have hiu : (members E (.obj ku1 kvs1))[i]? = some (nm, x) := by rw [e2]; exact unionM_at hi hdk
        have hix := indexByName_members L ku1 kvs1 hdu k
        rw [find_distinct L hdu hiu hm] at hix
        have hmi := members_index E ku1 kvs1 k
        rcases hxx : indexByName E ku1 kvs1 k with ⟨j, ku3, kvs3⟩
        rw [hxx] at hix hmi
        simp only at hix hmi ⊢
        subst hix
        obtain ⟨k0, hk0⟩ : ∃ k0, kvs3[i]? = some (k0, x) := by
          have h1 : (kvs3.map Prod.snd)[i]? = some x := by rw [← members_snd E ku3 kvs3, hmi]; simp [hiu]
          simp only [List.getElem?_map, Option.map_eq_some_iff] at h1
          obtain ⟨⟨a, y⟩, h1, rfl⟩ := h1
          exact ⟨a, h1⟩
        simp only [hk0]
        have hfit := fitsM_mem hF (k, b) (by simp) (nm, x) ha hm
        simp only at hfit
        have hsize : sizeOf b ≤ n := by
          have : sizeOf (k, b) < sizeOf (ws ++ (k, b) :: rest) := List.sizeOf_lt_of_mem (by simp)
          simp at hn this
          omega
        have hnot : ∀ {x : Val}, Container x → ¬(2 ≤ x.vt.ord ∧ x.vt.ord ≤ 9) := by
          intro x hx
          cases x <;> simp [Container] at hx <;> simp [Val.vt, VT.ord]
        rcases hfit with h | ⟨hx, hfx⟩ | ⟨hx, hb⟩
        · exact absurd h hns
        · cases x with
          | obj ku0 kvs0 =>
            rw [if_neg (hnot (x := .obj ku0 kvs0) trivial)]
            by_cases hbo : IsObj b
            · obtain ⟨t1, t2, e3, hM⟩ := ih b ku0 kvs0 hsize hbo hOb.1 hfx
              refine ⟨ku3, kvs3.modify i (fun kv => (kv.1, .obj t1 t2)), by simp [e3], ?_⟩
              exact .into hmw hs hi hm trivial hbo hM trivial (by rw [members_modify, hmi, e2])
            · have hnb : NoMembers b := by
                cases b <;> first | exact absurd trivial hbo | exact hfx
              have e3 : mergeDV E none [] ku0 kvs0 b = some (ku0, kvs0) := by
                have ho := noMembers_ord hnb
                cases b <;> first | exact absurd trivial hbo | (simp only [mergeDV]; rw [if_pos ho])
              refine ⟨ku3, kvs3, by simp [e3, modify_same hk0], ?_⟩
              exact .stop hmw hs hi hm trivial hnb trivial (by rw [hmi, e2])
          | _ => exact hx.elim
        · have ho := noMembers_ord hb
          rw [if_neg (hnot hx)]
          cases x with
          | obj ku0 kvs0 =>
            have e3 : mergeDV E none [] ku0 kvs0 b = some (ku0, kvs0) := by
              cases b <;> first | exact hb.elim | (simp only [mergeDV]; rw [if_pos ho])
            refine ⟨ku3, kvs3, by simp [e3, modify_same hk0], ?_⟩
            exact .stop hmw hs hi hm trivial hb trivial (by rw [hmi, e2])
          | arr xs =>
            refine ⟨ku3, kvs3, by simp [ho], ?_⟩
            exact .stop hmw hs hi hm trivial hb trivial (by rw [hmi, e2])
          | _ => exact hx.elim
    | _ => exact hw.elim

/-! ## C110 -/

/-- After `v.MergeWith(w, nil)` the value `v` is what `Merged` says, and `w` is unchanged. Missing: what `Joins` leaves out, what `Clone` does not
copy (C37), common nodes. -/
theorem C110_merged_partial {E : Env} (L : KeyLaws E) {h : Heap} {p q : Ptr} {ku ku' : Bool} {kvs kvs' : List (Bytes × Val)} {F G : List Ptr}
    (g : Good h (some p) (.obj ku kvs) F) (gw : Good h (some q) (.obj ku' kvs') G) (ha : Separate h p q) (ho : Owns h q) (hO : Ordinary (.obj ku' kvs'))
    (ht : ∀ r ∈ G, (h.mem r).dt ≠ .object → (h.mem r).kvs = []) (hf : Joins E (.obj ku kvs) (.obj ku' kvs')) (f : Nat)
    (hn : namesM kvs' + heightM kvs' + 2 ≤ f) :
    ∃ h' r F', mergeWith E none f h (some p) (some q) = .ok h' ∧ Good h' (some p) r F' ∧ Merged E (.obj ku kvs) (.obj ku' kvs') r ∧ Good h' (some q) (.obj ku' kvs') G := by
  obtain ⟨ku2, kvs2, e1, hM⟩ := mergeDV_merged L _ (.obj ku' kvs') ku kvs (Nat.le_refl _) trivial hO hf
  rw [mergeDV] at e1
  have hd := Separate.off g gw ha
  obtain ⟨h', F', e3, u⟩ := mergeObject_deep E (mf := none) (ask := none) trivial f kvs' p q ku' kvs' G 0 h [] ku kvs F ku2 kvs2 (OrdinaryM.same hO).2 rfl hn g gw hd
    (ho.copyable gw) ht e1
  refine ⟨h', _, F', ?_, u.good, hM, gw.frame u.frame hd⟩
  simp only [mergeWith, show (h.mem p).dt = .object from rep_dt g.rep, show (h.mem q).dt = .object from rep_dt gw.rep]
  simpa [VT.ord] using e3

/-- `{"x":1,"a":{"b":1}}` merged with `{"c":2,"a":{"b":2,"d":3},"e":4}` is `{"x":1,"a":{"b":[1,2],"d":3},"c":2}`. -/
example : Merged envEx (.obj true [([120], .int 0 1), ([97], .obj true [([98], .int 0 1)])])
    (.obj true [([99], .int 0 2), ([97], .obj true [([98], .int 0 2), ([100], .int 0 3)]), ([101], .int 0 4)])
    (.obj true [([120], .int 0 1), ([97], .obj true [([98], .arr [.int 0 1, .int 0 2]), ([100], .int 0 3)]), ([99], .int 0 2)]) := by
  have n1 : envEx.keyMatch [120] [99] = false := by decide
  have n2 : envEx.keyMatch [97] [99] = false := by decide
  have n3 : envEx.keyMatch [98] [98] = true := by decide
  have n4 : envEx.keyMatch [98] [100] = false := by decide
  refine .into (ws := [([99], .int 0 2)]) (rest := [([101], .int 0 4)]) (k := [97]) (i := 1) rfl ?_ rfl (by decide) trivial trivial
    (.all (r := .obj true [([98], .arr [.int 0 1, .int 0 2]), ([100], .int 0 3)]) ?_ trivial ?_) trivial ?_
  · intro a ha b hb hm
    simp only [members, List.mem_cons, List.not_mem_nil, or_false] at ha hb
    subst hb
    rcases ha with rfl | rfl <;> simp_all
  · intro a ha b hb hm
    simp only [members, List.mem_cons, List.not_mem_nil, or_false] at ha hb
    subst ha
    rfl
  · simp [members, unionM, unionW, n3, n4]
  · simp [members, unionM, unionW, n1, n2]

/-- The hypotheses on these two can be met. -/
example : Joins envEx (.obj true [([120], .int 0 1), ([97], .obj true [([98], .int 0 1)])])
    (.obj true [([99], .int 0 2), ([97], .obj true [([98], .int 0 2), ([100], .int 0 3)]), ([101], .int 0 4)]) ∧
    Ordinary (.obj true [([99], .int 0 2), ([97], .obj true [([98], .int 0 2), ([100], .int 0 3)]), ([101], .int 0 4)]) := by
  refine ⟨?_, by simp [Ordinary, OrdinaryM]⟩
  refine ⟨by simp only [UniqueNames, members]; decide, by simp only [UniqueNames, members]; decide, rfl, ?_, ?_, ?_, trivial⟩
  · intro a ha hm
    simp only [members, List.mem_cons, List.not_mem_nil, or_false] at ha
    rcases ha with rfl | rfl <;> exact absurd hm (by decide)
  · intro a ha hm
    simp only [members, List.mem_cons, List.not_mem_nil, or_false] at ha
    rcases ha with rfl | rfl
    · exact Or.inl rfl
    · refine Or.inr (Or.inl ⟨trivial, by simp only [UniqueNames, members]; decide, by simp only [UniqueNames, members]; decide, rfl, ?_, ?_, trivial⟩)
      · intro a ha _
        simp only [members, List.mem_cons, List.not_mem_nil, or_false] at ha
        subst ha
        exact Or.inl rfl
      · intro a ha _
        simp only [members, List.mem_cons, List.not_mem_nil, or_false] at ha
        subst ha
        exact Or.inl rfl
  · intro a ha hm
    simp only [members, List.mem_cons, List.not_mem_nil, or_false] at ha
    rcases ha with rfl | rfl <;> exact absurd hm (by decide)

/-- In the memory: `{"a":{"b":1}}` merged with `{"c":2,"a":{"d":3},"e":4}` has `a` and `c`; `a` has `b` and `d`. -/
example :
    let r := newObject (Heap.init id) false none
    let a := newObject r.2 false none
    let s := newObject a.2 false none
    let b := newObject s.2 false none
    ((setKeyInt envEx b.2 a.1 [98] 1).bind fun h => (setKeyInt envEx h b.1 [100] 3).bind fun h => (setKeyInt envEx (setKeyValue envEx h r.1 [97] (some a.1)) s.1 [99] 2).bind fun h =>
      (setKeyInt envEx (setKeyValue envEx h s.1 [97] (some b.1)) s.1 [101] 4).bind fun h => (mergeWith envEx none 99 h (some r.1) (some s.1)).bind (fun h' =>
        .ok ((h'.mem r.1).kvs.map Prod.fst, (h'.mem a.1).kvs.map Prod.fst))) = .ok ([[97], [99]], [[98], [100]]) := by decide +kernel

/-- An object merged into an array of the same name: with `{"a":{"0":2}}` the element of `{"a":[1]}` is replaced, with `{"a":{"x":2}}` the array becomes
the object `{"x":2}`; the 1 is lost. -/
theorem C110_array_counterexample :
    let r := newObject (Heap.init id) false none
    let a := newArray r.2 false none
    let h := setKeyValue envEx (setIndexInt a.2 a.1 0 1) r.1 [97] (some a.1)
    let s := newObject h false none
    let b := newObject s.2 false none
    ((setKeyInt envEx b.2 b.1 [48] 2).bind fun h => (mergeWith envEx none 99 (setKeyValue envEx h s.1 [97] (some b.1)) (some r.1) (some s.1)).bind (fun h' =>
        .ok ((h'.mem a.1).dt, (h'.mem a.1).arr.map (fun q => q.map (fun q => getInt envEx (h'.mem q)))))) = .ok (.array, [some 2]) ∧
    ((setKeyInt envEx b.2 b.1 [120] 2).bind fun h => (mergeWith envEx none 99 (setKeyValue envEx h s.1 [97] (some b.1)) (some r.1) (some s.1)).bind (fun h' =>
        .ok ((h'.mem a.1).dt, (h'.mem a.1).arr.length, (h'.mem a.1).kvs.map (fun kv => (kv.1, kv.2.map (fun q => getInt envEx (h'.mem q))))))) = .ok (.object, 0, [([120], some 2)]) := by
  decide +kernel

end Dxs.Heap
