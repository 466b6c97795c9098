import Verif.Heap.Tree

/-!
# What each operation does to a proper tree
-/

namespace Dxs.Heap

theorem UpdX.ofGrows {X Y : List Ptr} {h h1 h2 : Heap} {F F' : List Ptr} {a : Option Ptr} {v : Val} (gr : Grows h h1)
    (u : UpdX X h1 F h2 a v F') (hX : ∀ q ∈ X, q ∈ Y ∨ Avail h q) : UpdX Y h F h2 a v F' where
  good := u.good
  frame := (gr.frame F).trans u.frame (fun _ hq => Or.inl hq)
  sub q hq := (u.sub q hq).imp id (fun h => h.elim (hX q) (fun h => Or.inr (gr.avail q h)))

/-! ## Objects -/

theorem Good.obj_inv {h : Heap} {p : Ptr} {ku : Bool} {kvs : List (Bytes × Val)} {F : List Ptr} (g : Good h (some p) (.obj ku kvs) F) :
    ∃ F0, F = p :: F0 ∧ 5 ≤ p ∧ (h.mem p).dt = .object ∧ (h.mem p).ku = ku ∧ RepM h.mem kvs (h.mem p).kvs F0 ∧
      p ∉ F0 ∧ F0.Nodup ∧ ¬Avail h p := by
  obtain ⟨p', F0, he, h5, rfl, hd, hk, hm⟩ := g.rep
  cases he
  have hn := List.nodup_cons.1 g.nodup
  exact ⟨F0, rfl, h5, hd, hk, hm, hn.1, hn.2, g.live p (by simp)⟩

theorem Good.arr_inv {h : Heap} {p : Ptr} {xs : List Val} {F : List Ptr} (g : Good h (some p) (.arr xs) F) :
    ∃ F0, F = p :: F0 ∧ 5 ≤ p ∧ (h.mem p).dt = .array ∧ RepL h.mem xs (h.mem p).arr F0 ∧
      p ∉ F0 ∧ F0.Nodup ∧ ¬Avail h p := by
  obtain ⟨p', F0, he, h5, rfl, hd, hm⟩ := g.rep
  cases he
  have hn := List.nodup_cons.1 g.nodup
  exact ⟨F0, rfl, h5, hd, hm, hn.1, hn.2, g.live p (by simp)⟩

theorem Frame.setNode {h : Heap} (I : Inv h) {p : Ptr} {F : List Ptr} (n : Node) (h5 : 5 ≤ p) (ho : n.owner = (h.mem p).owner) (hp : p ∈ F) :
    Frame h F (h.set p n) where
  inv := I.set p n (fun h => by omega) (fun c hc => I.owner p c (ho ▸ hc))
  avail _ := id
  mem q _ hF _ := set_mem_ne _ _ (by rintro rfl; exact hF hp)

/-- Overwriting the member list of an object by one made of its own members and the trees `X`. -/
theorem obj_write {h : Heap} {p : Ptr} {ku : Bool} {kvs : List (Bytes × Val)} {F : List Ptr} (g : Good h (some p) (.obj ku kvs) F)
    {n : Node} (hd : n.dt = .object) (ho : n.owner = (h.mem p).owner) {X F' : List Ptr} {kvs' : List (Bytes × Val)}
    (hr : RepM h.mem kvs' n.kvs F') (hn : F'.Nodup) (hs : ∀ q ∈ F', (q ∈ F ∧ q ≠ p) ∨ q ∈ X) (hX : ∀ q ∈ X, q ≠ p ∧ ¬Avail h q) :
    UpdX X h F (h.set p n) (some p) (.obj n.ku kvs') (p :: F') := by
  obtain ⟨F0, rfl, h5, -, -, -, -, -, hav⟩ := g.obj_inv
  have hp : p ∉ F' := fun hp => (hs p hp).elim (fun h => h.2 rfl) (fun h => (hX p h).1 rfl)
  refine ⟨write_obj g.inv h5 hav hd ho hr (List.nodup_cons.2 ⟨hp, hn⟩) ?_, Frame.setNode g.inv n h5 ho (by simp), ?_⟩
  · intro q hq
    rcases hs q hq with h1 | h1
    · exact g.live q h1.1
    · exact (hX q h1).2
  · intro q hq
    rcases List.mem_cons.1 hq with rfl | hq
    · exact Or.inl (by simp)
    · rcases hs q hq with h1 | h1
      · exact Or.inl h1.1
      · exact Or.inr (Or.inl h1)

/-- Overwriting the element list of an array by one made of its own elements and the trees `X`. -/
theorem arr_write {h : Heap} {p : Ptr} {xs : List Val} {F : List Ptr} (g : Good h (some p) (.arr xs) F)
    {n : Node} (hd : n.dt = .array) (ho : n.owner = (h.mem p).owner) {X F' : List Ptr} {xs' : List Val}
    (hr : RepL h.mem xs' n.arr F') (hn : F'.Nodup) (hs : ∀ q ∈ F', (q ∈ F ∧ q ≠ p) ∨ q ∈ X) (hX : ∀ q ∈ X, q ≠ p ∧ ¬Avail h q) :
    UpdX X h F (h.set p n) (some p) (.arr xs') (p :: F') := by
  obtain ⟨F0, rfl, h5, -, -, -, -, hav⟩ := g.arr_inv
  have hp : p ∉ F' := fun hp => (hs p hp).elim (fun h => h.2 rfl) (fun h => (hX p h).1 rfl)
  refine ⟨write_arr g.inv h5 hav hd ho hr (List.nodup_cons.2 ⟨hp, hn⟩) ?_, Frame.setNode g.inv n h5 ho (by simp), ?_⟩
  · intro q hq
    rcases hs q hq with h1 | h1
    · exact g.live q h1.1
    · exact (hX q h1).2
  · intro q hq
    rcases List.mem_cons.1 hq with rfl | hq
    · exact Or.inl (by simp)
    · rcases hs q hq with h1 | h1
      · exact Or.inl h1.1
      · exact Or.inr (Or.inl h1)

/-- Storing a tree in member `i`. -/
theorem obj_modify {h : Heap} {p : Ptr} {ku : Bool} {kvs : List (Bytes × Val)} {F : List Ptr} (g : Good h (some p) (.obj ku kvs) F)
    {b : Option Ptr} {w : Val} {G : List Ptr} (gw : Good h b w G) (hd : ∀ q ∈ G, q ∉ F) {i : Nat} (hi : i < kvs.length) :
    ∃ F', UpdX G h F (h.upd p (fun n => { n with kvs := n.kvs.modify i (fun kv => (kv.1, b)) })) (some p)
      (.obj ku (kvs.modify i (fun kv => (kv.1, w)))) F' := by
  obtain ⟨F0, rfl, h5, hdt, hk, hm, hp0, hn0, hav⟩ := g.obj_inv
  obtain ⟨hkeys, hl⟩ := repM_iff.1 hm
  obtain ⟨F', hr, hs, hn⟩ := repL_set hl (i := i) (by simpa using hi) gw.rep
  refine ⟨p :: F', ?_⟩
  subst hk
  refine obj_write g (n := { h.mem p with kvs := (h.mem p).kvs.modify i (fun kv => (kv.1, b)) }) hdt rfl (repM_iff.2 ⟨?_, ?_⟩)
    (hn hn0 gw.nodup (fun q hq h => hd q hq (by simp [h]))) ?_ ?_
  · rw [modify_fst, modify_fst, hkeys]
  · rw [modify_snd, modify_snd]; exact hr
  · intro q hq
    rcases hs q hq with h1 | h1
    · exact Or.inl ⟨by simp [h1], by rintro rfl; exact hp0 h1⟩
    · exact Or.inr h1
  · intro q hq
    exact ⟨by rintro rfl; exact hd q hq (by simp), gw.live q hq⟩

/-- Appending a member. -/
theorem obj_snoc {h : Heap} {p : Ptr} {ku : Bool} {kvs : List (Bytes × Val)} {F : List Ptr} (g : Good h (some p) (.obj ku kvs) F)
    {b : Option Ptr} {w : Val} {G : List Ptr} (gw : Good h b w G) (hd : ∀ q ∈ G, q ∉ F) (name : Bytes) :
    ∃ F', UpdX G h F (h.upd p (fun n => { n with kvs := n.kvs ++ [(name, b)] })) (some p)
      (.obj ku (kvs ++ [(name, w)])) F' := by
  obtain ⟨F0, rfl, h5, hdt, hk, hm, hp0, hn0, hav⟩ := g.obj_inv
  obtain ⟨hkeys, hl⟩ := repM_iff.1 hm
  refine ⟨p :: (F0 ++ G), ?_⟩
  subst hk
  refine obj_write g (n := { h.mem p with kvs := (h.mem p).kvs ++ [(name, b)] }) hdt rfl (repM_iff.2 ⟨?_, ?_⟩) ?_ ?_ ?_
  · simp [hkeys]
  · simpa using repL_snoc hl gw.rep
  · rw [List.nodup_append]
    exact ⟨hn0, gw.nodup, fun a ha b hb e => hd b hb (by simp [← e, ha])⟩
  · intro q hq
    rcases List.mem_append.1 hq with h1 | h1
    · exact Or.inl ⟨by simp [h1], by rintro rfl; exact hp0 h1⟩
    · exact Or.inr h1
  · intro q hq
    exact ⟨by rintro rfl; exact hd q hq (by simp), gw.live q hq⟩

theorem eraseIdx_map {α β : Type} (f : α → β) (xs : List α) (i : Nat) : (xs.eraseIdx i).map f = (xs.map f).eraseIdx i := by
  rw [List.eraseIdx_eq_take_drop_succ, List.eraseIdx_eq_take_drop_succ]; simp

/-- Removing member `i`. -/
theorem obj_erase {h : Heap} {p : Ptr} {ku : Bool} {kvs : List (Bytes × Val)} {F : List Ptr} (g : Good h (some p) (.obj ku kvs) F) (i : Nat) :
    ∃ F', Upd h F (h.upd p (fun n => { n with kvs := n.kvs.eraseIdx i })) (some p) (.obj ku (kvs.eraseIdx i)) F' := by
  obtain ⟨F0, rfl, h5, hdt, hk, hm, hp0, hn0, hav⟩ := g.obj_inv
  obtain ⟨hkeys, hl⟩ := repM_iff.1 hm
  obtain ⟨F', hr, hs, hn⟩ := repL_erase hl (i := i)
  refine ⟨p :: F', ?_⟩
  subst hk
  refine obj_write g (n := { h.mem p with kvs := (h.mem p).kvs.eraseIdx i }) hdt rfl (repM_iff.2 ⟨?_, ?_⟩) (hn hn0) ?_ (by simp)
  · rw [eraseIdx_map, eraseIdx_map, hkeys]
  · rw [eraseIdx_map, eraseIdx_map]; exact hr
  · intro q hq
    exact Or.inl ⟨by simp [hs q hq], by rintro rfl; exact hp0 (hs q hq)⟩

/-- The key search. -/
theorem objIndex_upd (E : Env) {h : Heap} {p : Ptr} {ku : Bool} {kvs : List (Bytes × Val)} {F : List Ptr}
    (g : Good h (some p) (.obj ku kvs) F) (name : Bytes) :
    (objIndex E h p name).1 = (indexByName E ku kvs name).1 ∧
    Upd h F (objIndex E h p name).2 (some p) (.obj (indexByName E ku kvs name).2.1 (indexByName E ku kvs name).2.2) F ∧
    (objIndex E h p name).2.nextC = h.nextC ∧
    ((objIndex E h p name).2.mem p).owner = (h.mem p).owner := by
  obtain ⟨F0, rfl, h5, hdt, hk, hm, hp0, hn0, hav⟩ := g.obj_inv
  obtain ⟨hkeys, hl⟩ := repM_iff.1 hm
  obtain ⟨e1, e2, e3⟩ := indexByName_keys E ku hkeys name
  subst hk
  refine ⟨e1, ?_, rfl, by simp [objIndex]⟩
  rw [← e2]
  refine obj_write g (n := { h.mem p with ku := (indexByName E (h.mem p).ku (h.mem p).kvs name).2.1, kvs := (indexByName E (h.mem p).ku (h.mem p).kvs name).2.2 }) hdt rfl
    (repM_iff.2 ⟨e3, ?_⟩) hn0 ?_ (by simp)
  · rw [indexByName_snd, indexByName_snd]; exact hl
  · intro q hq
    exact Or.inl ⟨by simp [hq], by rintro rfl; exact hp0 hq⟩

/-- What `SetKey`/`SetIndex` find or leave in the place they return: the old value if it has the requested type already,
otherwise an empty value of that type. -/
def Slot (t : VT) (old : Option Val) (w : Val) : Prop :=
  match old with
  | some x => if x ≠ .nil ∧ x.vt = t then w = x else ∃ c, w = blankVal t c
  | none => ∃ c, w = blankVal t c

theorem Slot.vt {t : VT} {old : Option Val} {w : Val} (h : Slot t old w) : w.vt = t ∧ w ≠ .nil := by
  unfold Slot at h
  split at h
  · split at h
    · rename_i hx; subst h; exact ⟨hx.2, hx.1⟩
    · obtain ⟨c, rfl⟩ := h; exact ⟨blankVal_vt _ _, blankVal_ne_nil _ _⟩
  · obtain ⟨c, rfl⟩ := h; exact ⟨blankVal_vt _ _, blankVal_ne_nil _ _⟩

/-- The value a name refers to before a write. -/
def objOld (E : Env) (ku : Bool) (kvs : List (Bytes × Val)) (name : Bytes) : Option Val :=
  (indexByName E ku kvs name).1.bind (fun i => (kvs.map Prod.snd)[i]?)

theorem kids_obj {n : Node} (h : n.dt = .object) : Node.kids n = n.kvs.map Prod.snd := by simp [Node.kids, h]
theorem kids_arr {n : Node} (h : n.dt = .array) : Node.kids n = n.arr := by simp [Node.kids, h]

/-- `SetKeyCached` on an object. -/
theorem setKeyCached_obj (E : Env) {h : Heap} {p : Ptr} {ku : Bool} {kvs : List (Bytes × Val)} {F : List Ptr}
    (g : Good h (some p) (.obj ku kvs) F) (name : Bytes) (t : VT) (c : Option CId) (hc : ∀ d, c = some d → d < h.nextC)
    (hnil : objOld E ku kvs name ≠ some .nil) :
    ∃ q h' w F', setKeyCached E h p name t c = .ok (q, h') ∧ Upd h F h' (some p) (objPut E ku kvs name w) F' ∧
      (Node.kids (h'.mem p))[objPos E ku kvs name]? = some (some q) ∧ 5 ≤ q ∧ Slot t (objOld E ku kvs name) w := by
  obtain ⟨F0, rfl, h5, hdt, hk, hm, hp0, hn0, hav⟩ := g.obj_inv
  obtain ⟨hidx, u1, hC, -⟩ := objIndex_upd E g name
  have hold := hnil
  unfold setKeyCached
  rw [if_neg (by simp [hdt]), if_pos hdt]
  unfold objOld at hnil
  have hlen := indexByName_length E ku kvs name
  have hlt := @indexByName_lt _ E ku kvs name
  have hsnd := indexByName_snd E ku kvs name
  simp only [objPut, objPos, objOld, setKeyValueObj]
  rcases hi : indexByName E ku kvs name with ⟨i, ku', kvs'⟩
  rw [hi] at hidx u1 hlen hlt hsnd hnil
  simp only at hidx u1 hlen hlt hsnd hnil
  rcases ho : objIndex E h p name with ⟨i', h1⟩
  rw [ho] at hidx u1 hC
  simp only at hidx u1 hC
  subst hidx
  have hc1 : ∀ d, c = some d → d < h1.nextC := by rw [hC]; exact hc
  obtain ⟨F1, hF1, -, hdt1, -, hm1, hp1, -⟩ := u1.good.obj_inv
  simp only [List.cons.injEq, true_and] at hF1
  subst hF1
  cases i' with
  | none =>
    have A := getValue_spec u1.good.inv c t hc1
    rcases hg : getValue h1 c t with ⟨q, h2⟩
    rw [hg] at A
    simp only at A
    have g2 := u1.good.grow A.toGrows
    obtain ⟨F', u2⟩ := obj_snoc g2 A.good (by
      intro x hx hF; simp at hx; subst hx; exact u1.good.live x hF A.was) name
    refine ⟨q, _, blankVal t (h2.mem q).cell, F', rfl, ?_, ?_, A.ge, ⟨_, rfl⟩⟩
    · refine UpdX.trans u1 (u2.ofGrows A.toGrows ?_)
      intro x hx; simp at hx; subst hx; exact Or.inr A.was
    · have hdt2 := rep_dt u2.good.rep
      rw [kids_obj hdt2]
      obtain ⟨G0, -, -, -, -, hm2, -⟩ := g2.obj_inv
      have hll := congrArg List.length (repM_iff.1 hm2).1
      simp only [List.length_map] at hll
      simp only [upd_mem_same, Option.getD_none, List.map_append, List.map_cons, List.map_nil]
      rw [← hlen, ← hll]
      rw [List.getElem?_append_right (by simp)]
      simp
  | some i =>
    have hilt := hlt rfl
    obtain ⟨x, hx⟩ : ∃ x, (kvs.map Prod.snd)[i]? = some x := ⟨_, List.getElem?_eq_getElem (by simpa using hilt)⟩
    simp only [Option.bind_some, hx] at hnil
    have hxn : x ≠ .nil := fun e => hnil (by rw [e])
    have hx1 : (Val.kids (.obj ku' kvs'))[i]? = some x := by simp only [Val.kids, hsnd, hx]
    obtain ⟨b, Fi, hb, gb, hFi, hupd⟩ := u1.good.kid hx1
    rw [kids_obj hdt1] at hb
    have hget : ((h1.mem p).kvs[i]?).bind Prod.snd = b := by
      rw [List.getElem?_map] at hb
      cases hkv : (h1.mem p).kvs[i]? with
      | none => rw [hkv] at hb; simp at hb
      | some kv => rw [hkv] at hb; simp at hb; simp [hb]
    simp only [hget, Option.bind_some, hx]
    cases b with
    | none =>
      rcases rep_cases gb.rep with ⟨e, -⟩ | ⟨_, _, e, _⟩ | ⟨_, _, e, _⟩
      · exact absurd e hxn
      · cases e
      · cases e
    | some b =>
      have hbdt := rep_dt gb.rep
      simp only
      by_cases hs : shared b = true
      · rw [if_pos hs]
        have A := getValue_spec u1.good.inv c t hc1
        rcases hg : getValue h1 c t with ⟨q, h2⟩
        rw [hg] at A
        simp only at A
        have g2 := u1.good.grow A.toGrows
        obtain ⟨F', u2⟩ := obj_modify g2 A.good (by
          intro x hx hF; simp at hx; subst hx; exact u1.good.live x hF A.was) (i := i) (by omega)
        refine ⟨q, _, blankVal t (h2.mem q).cell, F', rfl, ?_, ?_, A.ge, ?_⟩
        · refine UpdX.trans u1 (u2.ofGrows A.toGrows ?_)
          intro x hx; simp at hx; subst hx; exact Or.inr A.was
        · have hdt2 := rep_dt u2.good.rep
          rw [kids_obj hdt2]
          obtain ⟨G0, -, -, -, -, hm2, -⟩ := g2.obj_inv
          have hll := congrArg List.length (repM_iff.1 hm2).1
          simp only [List.length_map] at hll
          simp only [upd_mem_same, Option.getD_some, modify_snd]
          rw [List.getElem?_set_self (by simp; omega)]
        · simp only [Slot]
          split
          · rename_i hvt
            have hcst : (constOf t).isSome := by
              have h5b : b < 5 := shared_iff.1 hs
              have := u1.good.inv.const b h5b
              rw [hbdt, hvt.2] at this
              subst this
              have : ∀ b < 5, (constOf (constVT b)).isSome := by decide
              exact this b h5b
            exact (vt_const_unique hxn hvt.2 hcst _).symm
          · exact ⟨_, rfl⟩
      · rw [if_neg hs]
        have hb5 : 5 ≤ b := by
          have := mt shared_iff.2 hs; omega
        by_cases hvt : x.vt = t
        · rw [if_neg (by rw [hbdt]; simp [hvt])]
          refine ⟨b, h1, x, p :: F0, rfl, ?_, ?_, hb5, ?_⟩
          · have : kvs'.modify i (fun kv => (kv.1, x)) = kvs' := by
              apply List.ext_getElem?
              intro j
              simp only [List.getElem?_modify]
              by_cases hij : i = j
              · subst hij
                have := hx1
                simp only [Val.kids, List.getElem?_map, Option.map_eq_some_iff] at this
                obtain ⟨kv, h1, h2⟩ := this
                simp [h1, ← h2]
              · simp [hij]
            rw [this]; exact u1
          · rw [kids_obj hdt1]; exact hb
          · simp [Slot, hxn, hvt]
        · rw [if_pos (by rw [hbdt]; exact hvt)]
          obtain ⟨F', u2⟩ := hupd [] _ _ _ (reset_upd gb hb5 t) (by simp)
          refine ⟨b, _, _, F', rfl, UpdX.trans u1 u2, ?_, hb5, ?_⟩
          · have hne : p ≠ b := by
              rintro rfl
              rw [hdt1] at hbdt
              have e1 := rep_det u1.good.rep gb.rep
              have : sizeOf x < sizeOf (Val.obj ku' kvs') := by
                have := hx1
                simp only [Val.kids, List.getElem?_map, Option.map_eq_some_iff] at this
                obtain ⟨kv, h1, rfl⟩ := this
                have h2 := List.sizeOf_lt_of_mem (List.mem_of_getElem? h1)
                have h3 : sizeOf kv.2 < sizeOf kv := by cases kv; simp; omega
                simp; omega
              rw [← e1.1] at this
              omega
            rw [reset_mem_ne hne, kids_obj hdt1]; exact hb
          · simp only [Slot]
            rw [if_neg (fun h => hvt h.2)]
            exact ⟨_, rfl⟩

/-- Following `SetKey` by an action on the node it returned. -/
theorem setKey_then (E : Env) {h : Heap} {p : Ptr} {ku : Bool} {kvs : List (Bytes × Val)} {F : List Ptr}
    (g : Good h (some p) (.obj ku kvs) F) (name : Bytes) (t : VT) (hnil : objOld E ku kvs name ≠ some .nil) :
    ∃ q h1 w, setKey E h p name t = .ok (q, h1) ∧ 5 ≤ q ∧ Slot t (objOld E ku kvs name) w ∧
      ∃ Fq, Good h1 (some q) w Fq ∧
        ∀ h2 w' Fq', Upd h1 Fq h2 (some q) w' Fq' → ∃ F', Upd h F h2 (some p) (objPut E ku kvs name w') F' := by
  obtain ⟨q, h1, w, F1, he, u, hk, h5, hs⟩ := setKeyCached_obj E g name t (h.mem p).owner (fun d hd => g.inv.owner p d hd) hnil
  obtain ⟨b, Fq, hb, gq, -, hupd⟩ := u.good.kid (kids_objPut E ku kvs name w)
  rw [hk] at hb
  cases hb
  refine ⟨q, h1, w, he, h5, hs, Fq, gq, ?_⟩
  intro h2 w' Fq' u2
  obtain ⟨F', u3⟩ := hupd [] h2 w' Fq' u2 (by simp)
  rw [setKid_objPut] at u3
  exact ⟨F', UpdX.trans u u3⟩

/-- `SetKeyValue` on an object. -/
theorem setKeyValue_obj (E : Env) {h : Heap} {p : Ptr} {ku : Bool} {kvs : List (Bytes × Val)} {F : List Ptr}
    (g : Good h (some p) (.obj ku kvs) F) (name : Bytes) {b : Option Ptr} {w : Val} {G : List Ptr} (gw : Good h b w G) (hd : ∀ q ∈ G, q ∉ F) :
    ∃ F', UpdX G h F (setKeyValue E h p name b) (some p) (objPut E ku kvs name w) F' := by
  obtain ⟨F0, rfl, h5, hdt, hk, hm, hp0, hn0, hav⟩ := g.obj_inv
  obtain ⟨hidx, u1, -⟩ := objIndex_upd E g name
  unfold setKeyValue
  rw [if_neg (by simp [hdt]), if_pos hdt]
  have hlen := indexByName_length E ku kvs name
  have hlt := @indexByName_lt _ E ku kvs name
  simp only [objPut, setKeyValueObj]
  rcases hi : indexByName E ku kvs name with ⟨i, ku', kvs'⟩
  rw [hi] at hidx u1 hlen hlt
  simp only at hidx u1 hlen hlt
  rcases ho : objIndex E h p name with ⟨i', h1⟩
  rw [ho] at hidx u1
  simp only at hidx u1
  subst hidx
  have gw1 := gw.frame u1.frame hd
  cases i' with
  | none =>
    obtain ⟨F', u2⟩ := obj_snoc u1.good gw1 hd name
    exact ⟨F', UpdX.trans u1 u2⟩
  | some i =>
    have := hlt rfl
    obtain ⟨F', u2⟩ := obj_modify u1.good gw1 hd (i := i) (by omega)
    exact ⟨F', UpdX.trans u1 u2⟩

/-- The members after `RemoveKey`. -/
def objDel (E : Env) (ku : Bool) (kvs : List (Bytes × Val)) (name : Bytes) : Val :=
  match indexByName E ku kvs name with
  | (some i, ku', kvs') => .obj ku' (kvs'.eraseIdx i)
  | (none, ku', kvs') => .obj ku' kvs'

theorem removeKey_obj (E : Env) {h : Heap} {p : Ptr} {ku : Bool} {kvs : List (Bytes × Val)} {F : List Ptr}
    (g : Good h (some p) (.obj ku kvs) F) (name : Bytes) :
    ∃ F', Upd h F (removeKey E h p name) (some p) (objDel E ku kvs name) F' := by
  obtain ⟨F0, rfl, h5, hdt, hk, hm, hp0, hn0, hav⟩ := g.obj_inv
  obtain ⟨hidx, u1, -⟩ := objIndex_upd E g name
  unfold removeKey objDel
  rw [if_pos hdt]
  rcases hi : indexByName E ku kvs name with ⟨i, ku', kvs'⟩
  rw [hi] at hidx u1
  simp only at hidx u1
  rcases ho : objIndex E h p name with ⟨i', h1⟩
  rw [ho] at hidx u1
  simp only at hidx u1
  subst hidx
  cases i' with
  | none => exact ⟨_, u1⟩
  | some i =>
    obtain ⟨F', u2⟩ := obj_erase u1.good i
    exact ⟨F', UpdX.trans u1 u2⟩

/-- `ExtractValue`: like `RemoveKey`, and the extracted value is intact and apart from what remains. -/
theorem extractValue_obj (E : Env) {h : Heap} {p : Ptr} {ku : Bool} {kvs : List (Bytes × Val)} {F : List Ptr}
    (g : Good h (some p) (.obj ku kvs) F) (name : Bytes) :
    ∃ F' G, Upd h F (extractValue E h p name).2 (some p) (objDel E ku kvs name) F' ∧
      Good (extractValue E h p name).2 (extractValue E h p name).1 ((objOld E ku kvs name).getD .nil) G ∧
      (∀ q ∈ G, q ∉ F') ∧ ∀ q ∈ G, q ∈ F := by
  obtain ⟨F0, rfl, h5, hdt, hk, hm, hp0, hn0, hav⟩ := g.obj_inv
  obtain ⟨hidx, u1, -⟩ := objIndex_upd E g name
  unfold extractValue objDel objOld
  rw [if_pos hdt]
  have hlt := @indexByName_lt _ E ku kvs name
  have hsnd := indexByName_snd E ku kvs name
  rcases hi : indexByName E ku kvs name with ⟨i, ku', kvs'⟩
  rw [hi] at hidx u1 hlt hsnd
  simp only at hidx u1 hlt hsnd
  rcases ho : objIndex E h p name with ⟨i', h1⟩
  rw [ho] at hidx u1
  simp only at hidx u1
  subst hidx
  cases i' with
  | none => exact ⟨_, [], u1, ⟨u1.frame.inv, ⟨rfl, rfl⟩, by simp, by simp⟩, by simp, by simp⟩
  | some i =>
    have hilt := hlt rfl
    obtain ⟨x, hx⟩ : ∃ x, (kvs.map Prod.snd)[i]? = some x := ⟨_, List.getElem?_eq_getElem (by simpa using hilt)⟩
    obtain ⟨F1, hF1, -, hdt1, hk1, hm1, hp1, hn1, hav1⟩ := u1.good.obj_inv
    simp only [List.cons.injEq, true_and] at hF1
    subst hF1
    obtain ⟨hkeys, hl⟩ := repM_iff.1 hm1
    obtain ⟨b, G1, Gi, G2, hq, hps, rfl, r1, r2, r3⟩ := repL_cut hl (by rw [hsnd]; exact hx)
    have hget : ((h1.mem p).kvs[i]?).bind Prod.snd = b := by
      rw [List.getElem?_map] at hq
      cases hkv : (h1.mem p).kvs[i]? with
      | none => rw [hkv] at hq; simp at hq
      | some kv => rw [hkv] at hq; simp at hq; simp [hq]
    have hnd : (G1 ++ G2).Nodup ∧ Gi.Nodup ∧ ∀ q ∈ Gi, q ∉ G1 ++ G2 := by
      simp only [List.append_assoc, List.nodup_append, List.mem_append] at hn1 ⊢
      grind
    have hni : ∀ q ∈ Gi, q ≠ p := by
      rintro q hq' rfl; exact hp1 (by simp [hq'])
    simp only [Option.bind_some, hx, Option.getD_some, hget]
    have u2 : Upd h1 (p :: (G1 ++ Gi ++ G2)) (h1.upd p (fun n => { n with kvs := n.kvs.eraseIdx i })) (some p) (.obj ku' (kvs'.eraseIdx i)) (p :: (G1 ++ G2)) := by
      subst hk1
      refine obj_write u1.good (n := { h1.mem p with kvs := (h1.mem p).kvs.eraseIdx i }) hdt1 rfl (repM_iff.2 ⟨?_, ?_⟩) hnd.1 ?_ (by simp)
      · rw [eraseIdx_map, eraseIdx_map, hkeys]
      · rw [eraseIdx_map, eraseIdx_map, List.eraseIdx_eq_take_drop_succ, List.eraseIdx_eq_take_drop_succ]
        exact repL_append.2 ⟨_, _, G1, G2, rfl, rfl, r1, r3⟩
      · intro q hq
        refine Or.inl ⟨?_, ?_⟩
        · simp at hq ⊢; grind
        · rintro rfl; exact hp1 (by simp at hq ⊢; grind)
    refine ⟨p :: (G1 ++ G2), Gi, UpdX.trans u1 u2, ⟨u2.frame.inv, ?_, hnd.2.1, ?_⟩, ?_, ?_⟩
    · refine rep_frame r2 ⟨fun q hq => upd_mem_ne _ _ (hni q hq), fun _ hp => u1.frame.inv.dt_const u2.frame.inv hp⟩
    · intro q hq
      exact u1.good.live q (by simp [hq])
    · intro q hq hF
      rcases List.mem_cons.1 hF with h1 | h1
      · exact hni q hq h1
      · exact hnd.2.2 q hq h1
    · intro q hq; simp [hq]

/-! ## Arrays -/

/-- Where `SetIndex` puts its value. -/
def arrPos (xs : List Val) (idx : Int) : Nat := if inRange idx xs.length then idx.toNat else xs.length

/-- Replace inside the bounds, append outside of them. -/
def arrPut (xs : List Val) (idx : Int) (w : Val) : Val :=
  .arr (if inRange idx xs.length then xs.set idx.toNat w else xs ++ [w])

/-- The element at an index, if there is one. -/
def arrOld (xs : List Val) (idx : Int) : Option Val := if inRange idx xs.length then xs[idx.toNat]? else none

theorem inRange_iff {idx : Int} {n : Nat} : inRange idx n = true ↔ 0 ≤ idx ∧ idx < n := by simp [inRange]

theorem setKid_arrPut (xs : List Val) (idx : Int) (w w' : Val) :
    Val.setKid (arrPut xs idx w) (arrPos xs idx) w' = arrPut xs idx w' := by
  unfold arrPut arrPos
  split
  · simp [Val.setKid]
  · simp [Val.setKid]

theorem kids_arrPut (xs : List Val) (idx : Int) (w : Val) : (Val.kids (arrPut xs idx w))[arrPos xs idx]? = some w := by
  unfold arrPut arrPos
  split
  · rename_i h
    have := inRange_iff.1 h
    simp only [Val.kids]
    rw [List.getElem?_set_self (by omega)]
  · simp [Val.kids]

/-- Storing a tree in element `i`. -/
theorem arr_set {h : Heap} {p : Ptr} {xs : List Val} {F : List Ptr} (g : Good h (some p) (.arr xs) F)
    {b : Option Ptr} {w : Val} {G : List Ptr} (gw : Good h b w G) (hd : ∀ q ∈ G, q ∉ F) {i : Nat} (hi : i < xs.length) :
    ∃ F', UpdX G h F (h.upd p (fun n => { n with arr := n.arr.set i b })) (some p) (.arr (xs.set i w)) F' := by
  obtain ⟨F0, rfl, h5, hdt, hl, hp0, hn0, hav⟩ := g.arr_inv
  obtain ⟨F', hr, hs, hn⟩ := repL_set hl hi gw.rep
  refine ⟨p :: F', arr_write g (n := { h.mem p with arr := (h.mem p).arr.set i b }) hdt rfl hr
    (hn hn0 gw.nodup (fun q hq h => hd q hq (by simp [h]))) ?_ ?_⟩
  · intro q hq
    rcases hs q hq with h1 | h1
    · exact Or.inl ⟨by simp [h1], by rintro rfl; exact hp0 h1⟩
    · exact Or.inr h1
  · intro q hq
    exact ⟨by rintro rfl; exact hd q hq (by simp), gw.live q hq⟩

/-- Appending an element. -/
theorem arr_snoc {h : Heap} {p : Ptr} {xs : List Val} {F : List Ptr} (g : Good h (some p) (.arr xs) F)
    {b : Option Ptr} {w : Val} {G : List Ptr} (gw : Good h b w G) (hd : ∀ q ∈ G, q ∉ F) :
    ∃ F', UpdX G h F (h.upd p (fun n => { n with arr := n.arr ++ [b] })) (some p) (.arr (xs ++ [w])) F' := by
  obtain ⟨F0, rfl, h5, hdt, hl, hp0, hn0, hav⟩ := g.arr_inv
  refine ⟨p :: (F0 ++ G), arr_write g (n := { h.mem p with arr := (h.mem p).arr ++ [b] }) hdt rfl (repL_snoc hl gw.rep) ?_ ?_ ?_⟩
  · rw [List.nodup_append]
    exact ⟨hn0, gw.nodup, fun a ha b hb e => hd b hb (by simp [← e, ha])⟩
  · intro q hq
    rcases List.mem_append.1 hq with h1 | h1
    · exact Or.inl ⟨by simp [h1], by rintro rfl; exact hp0 h1⟩
    · exact Or.inr h1
  · intro q hq
    exact ⟨by rintro rfl; exact hd q hq (by simp), gw.live q hq⟩

/-- Inserting an element. -/
theorem arr_insert {h : Heap} {p : Ptr} {xs : List Val} {F : List Ptr} (g : Good h (some p) (.arr xs) F)
    {b : Option Ptr} {w : Val} {G : List Ptr} (gw : Good h b w G) (hd : ∀ q ∈ G, q ∉ F) (i : Nat) :
    ∃ F', UpdX G h F (h.upd p (fun n => { n with arr := n.arr.take i ++ [b] ++ n.arr.drop i })) (some p)
      (.arr (xs.take i ++ [w] ++ xs.drop i)) F' := by
  obtain ⟨F0, rfl, h5, hdt, hl, hp0, hn0, hav⟩ := g.arr_inv
  obtain ⟨F', hr, hs, hn⟩ := repL_insert hl i gw.rep
  refine ⟨p :: F', arr_write g (n := { h.mem p with arr := (h.mem p).arr.take i ++ [b] ++ (h.mem p).arr.drop i }) hdt rfl hr
    (hn hn0 gw.nodup (fun q hq h => hd q hq (by simp [h]))) ?_ ?_⟩
  · intro q hq
    rcases hs q hq with h1 | h1
    · exact Or.inl ⟨by simp [h1], by rintro rfl; exact hp0 h1⟩
    · exact Or.inr h1
  · intro q hq
    exact ⟨by rintro rfl; exact hd q hq (by simp), gw.live q hq⟩

/-- Removing element `i`. -/
theorem arr_erase {h : Heap} {p : Ptr} {xs : List Val} {F : List Ptr} (g : Good h (some p) (.arr xs) F) (i : Nat) :
    ∃ F', Upd h F (h.upd p (fun n => { n with arr := n.arr.take i ++ n.arr.drop (i + 1) })) (some p)
      (.arr (xs.take i ++ xs.drop (i + 1))) F' := by
  obtain ⟨F0, rfl, h5, hdt, hl, hp0, hn0, hav⟩ := g.arr_inv
  obtain ⟨F', hr, hs, hn⟩ := repL_erase hl (i := i)
  rw [List.eraseIdx_eq_take_drop_succ, List.eraseIdx_eq_take_drop_succ] at hr
  refine ⟨p :: F', arr_write g (n := { h.mem p with arr := (h.mem p).arr.take i ++ (h.mem p).arr.drop (i + 1) }) hdt rfl hr (hn hn0) ?_ (by simp)⟩
  intro q hq
  exact Or.inl ⟨by simp [hs q hq], by rintro rfl; exact hp0 (hs q hq)⟩

theorem Good.arr_len {h : Heap} {p : Ptr} {xs : List Val} {F : List Ptr} (g : Good h (some p) (.arr xs) F) :
    (h.mem p).arr.length = xs.length := by
  obtain ⟨F0, -, -, -, hl, -⟩ := g.arr_inv
  exact repL_length hl

/-- `SetIndexCached` on an array. -/
theorem setIndexCached_arr {h : Heap} {p : Ptr} {xs : List Val} {F : List Ptr}
    (g : Good h (some p) (.arr xs) F) (idx : Int) (t : VT) (c : Option CId) (hc : ∀ d, c = some d → d < h.nextC) :
    ∃ w F', Upd h F (setIndexCached h p idx t c).2 (some p) (arrPut xs idx w) F' ∧
      (Node.kids ((setIndexCached h p idx t c).2.mem p))[arrPos xs idx]? = some (some (setIndexCached h p idx t c).1) ∧
      Slot t (arrOld xs idx) w ∧ ((constOf t).isNone → 5 ≤ (setIndexCached h p idx t c).1) := by
  have hlen := g.arr_len
  have hdt := rep_dt g.rep
  have A := getValue_spec g.inv c t hc
  unfold setIndexCached
  simp only [show (h.mem p).dt = .array from hdt, if_true, hlen]
  unfold arrPut arrPos arrOld
  rcases hg : getValue h c t with ⟨q, h2⟩
  rw [hg] at A
  simp only at A
  have g2 := g.grow A.toGrows
  have hdisj : ∀ x ∈ [q], x ∉ F := by
    intro x hx hF; simp at hx; subst hx; exact g.live x hF A.was
  have hsub : ∀ x ∈ [q], x ∈ ([] : List Ptr) ∨ Avail h x := by
    intro x hx; simp at hx; subst hx; exact Or.inr A.was
  by_cases hr : inRange idx xs.length = true
  · have hr' := inRange_iff.1 hr
    simp only [hr, if_true]
    obtain ⟨x, hx⟩ : ∃ x, xs[idx.toNat]? = some x := ⟨_, List.getElem?_eq_getElem (by omega)⟩
    obtain ⟨b, Fi, hb, gb, hFi, hupd⟩ := g.kid (i := idx.toNat) hx
    have hb' := hb
    rw [kids_arr hdt] at hb
    simp only [hb, Option.bind_some, id_eq, hx]
    have hkq : (Node.kids ((h2.upd p (fun n => { n with arr := n.arr.set idx.toNat (some q) })).mem p))[idx.toNat]? = some (some q) := by
      have h2dt := rep_dt g2.rep
      have h2len := g2.arr_len
      rw [upd_mem_same, kids_arr (by exact h2dt)]
      rw [List.getElem?_set_self (by omega)]
    cases b with
    | none =>
      obtain ⟨F', u2⟩ := arr_set g2 A.good hdisj (i := idx.toNat) (by omega)
      refine ⟨_, F', u2.ofGrows A.toGrows hsub, hkq, ?_, fun _ => A.ge⟩
      simp only [Slot]
      rw [if_neg]
      · exact ⟨_, rfl⟩
      · rintro ⟨hx1, -⟩
        rcases rep_cases gb.rep with ⟨e, -⟩ | ⟨_, _, e, _⟩ | ⟨_, _, e, _⟩
        · exact hx1 e
        · cases e
        · cases e
    | some b =>
      have hbdt := rep_dt gb.rep
      have hxn := rep_ne_nil gb.rep
      simp only [hbdt]
      by_cases hvt : x.vt = t
      · rw [if_neg (by simp [hvt])]
        refine ⟨x, F, ?_, ?_, ?_, ?_⟩
        · have : xs.set idx.toNat x = xs := by
            apply List.ext_getElem?
            intro j
            by_cases hj : idx.toNat = j
            · subst hj
              rw [List.getElem?_set_self (by omega), hx]
            · rw [List.getElem?_set_ne hj]
          rw [this]; exact g.upd_refl
        · exact hb'
        · simp [Slot, hxn, hvt]
        · intro hcn
          simp only
          rcases Nat.lt_or_ge b 5 with hlt | hge
          · have := g.inv.const b hlt
            rw [hbdt, hvt] at this
            subst this
            have hh : ∀ b < 5, (constOf (constVT b)).isNone = false := by decide
            rw [hh b hlt] at hcn
            cases hcn
          · exact hge
      · rw [if_pos (by simpa using hvt)]
        by_cases hs : shared b = true
        · rw [if_pos hs]
          obtain ⟨F', u2⟩ := arr_set g2 A.good hdisj (i := idx.toNat) (by omega)
          refine ⟨_, F', u2.ofGrows A.toGrows hsub, hkq, ?_, fun _ => A.ge⟩
          simp only [Slot]
          rw [if_neg (fun h => hvt h.2)]
          exact ⟨_, rfl⟩
        · rw [if_neg hs]
          have hb5 : 5 ≤ b := by
            have := mt shared_iff.2 hs; omega
          obtain ⟨F', u2⟩ := hupd [] _ _ _ (reset_upd gb hb5 t) (by simp)
          refine ⟨_, F', u2, ?_, ?_, fun _ => hb5⟩
          · have hne : p ≠ b := by
              rintro rfl
              have e1 := rep_det g.rep gb.rep
              have : sizeOf x < sizeOf (Val.arr xs) := by
                have := List.sizeOf_lt_of_mem (List.mem_of_getElem? hx)
                simp; omega
              rw [← e1.1] at this
              omega
            simp only
            rw [reset_mem_ne hne]; exact hb'
          · simp only [Slot]
            rw [if_neg (fun h => hvt h.2)]
            exact ⟨_, rfl⟩
  · simp only [hr]
    obtain ⟨F', u2⟩ := arr_snoc g2 A.good hdisj
    refine ⟨_, F', u2.ofGrows A.toGrows hsub, ?_, ⟨_, rfl⟩, fun _ => A.ge⟩
    have h2dt := rep_dt g2.rep
    have h2len := g2.arr_len
    simp only [Bool.false_eq_true, if_false]
    rw [upd_mem_same, kids_arr (by exact h2dt), ← h2len]
    simp

/-- Following `SetIndex` by an action on the node it returned. -/
theorem setIndex_then {h : Heap} {p : Ptr} {xs : List Val} {F : List Ptr} (g : Good h (some p) (.arr xs) F) (idx : Int) (t : VT) :
    ∃ w Fq, Slot t (arrOld xs idx) w ∧ Good (setIndex h p idx t).2 (some (setIndex h p idx t).1) w Fq ∧
      ((constOf t).isNone → 5 ≤ (setIndex h p idx t).1) ∧
        ∀ h2 w' Fq', Upd (setIndex h p idx t).2 Fq h2 (some (setIndex h p idx t).1) w' Fq' →
          ∃ F', Upd h F h2 (some p) (arrPut xs idx w') F' := by
  obtain ⟨w, F1, u, hk, hs, h5⟩ := setIndexCached_arr g idx t (h.mem p).owner (fun d hd => g.inv.owner p d hd)
  obtain ⟨b, Fq, hb, gq, -, hupd⟩ := u.good.kid (kids_arrPut xs idx w)
  rw [hk] at hb
  cases hb
  refine ⟨w, Fq, hs, gq, h5, ?_⟩
  intro h2 w' Fq' u2
  obtain ⟨F', u3⟩ := hupd [] h2 w' Fq' u2 (by simp)
  rw [setKid_arrPut] at u3
  exact ⟨F', UpdX.trans u u3⟩

/-- `SetIndexValue` on an array. -/
theorem setIndexValue_arr {h : Heap} {p : Ptr} {xs : List Val} {F : List Ptr} (g : Good h (some p) (.arr xs) F) (idx : Int)
    {b : Option Ptr} {w : Val} {G : List Ptr} (gw : Good h b w G) (hd : ∀ q ∈ G, q ∉ F) :
    ∃ F', UpdX G h F (setIndexValue h p idx b) (some p) (arrPut xs idx w) F' := by
  have hlen := g.arr_len
  have hdt := rep_dt g.rep
  unfold setIndexValue arrPut
  simp only [show (h.mem p).dt = .array from hdt, if_true, hlen]
  split
  · rename_i hr
    have := inRange_iff.1 hr
    exact arr_set g gw hd (by omega)
  · exact arr_snoc g gw hd

/-- The element list after `InsertValue`. -/
def arrIns (xs : List Val) (idx : Int) (w : Val) : Val := .arr (xs.take idx.toNat ++ [w] ++ xs.drop idx.toNat)

/-- `NewValue`: a tree of its own. -/
theorem newValue_good {h : Heap} (I : Inv h) (t : VT) :
    ∃ w G, Grows h (newValue h t).2 ∧ Good (newValue h t).2 (some (newValue h t).1) w G ∧ (∃ c, w = blankVal t c) ∧
      (∀ q ∈ G, Avail h q) := by
  cases ht : constOf t with
  | none =>
    have A := newValue_spec I t ht
    exact ⟨_, _, A.toGrows, A.good, ⟨_, rfl⟩, by intro q hq; simp at hq; subst hq; exact A.was⟩
  | some p =>
    rw [newValue_const t ht]
    obtain ⟨h5, hvt⟩ := constOf_const ht
    refine ⟨blankVal t 0, [], Grows.refl I, ⟨I, ?_, by simp, by simp⟩, ⟨_, rfl⟩, by simp⟩
    have hd := I.const p h5
    rw [hvt] at hd
    have hleaf : ∀ t, (constOf t).isSome → Val.isLeaf (blankVal t 0) = true := by intro t; cases t <;> simp [constOf, blankVal, Val.isLeaf]
    rw [rep_leaf (hleaf t (by simp [ht]))]
    refine ⟨p, rfl, by simp [foot, h5], ?_⟩
    cases t <;> simp [constOf] at ht <;> simp [leafOf, hd, blankVal]

/-- `InsertValue` on an array. -/
theorem insertValue_arr {h : Heap} {p : Ptr} {xs : List Val} {F : List Ptr} (g : Good h (some p) (.arr xs) F) (idx : Int) (t : VT) :
    ∃ c F', Upd h F (insertValue h p idx t).2 (some p) (arrIns xs idx (blankVal t c)) F' := by
  have hdt := rep_dt g.rep
  obtain ⟨w, G, gr, gw, ⟨c, rfl⟩, hG⟩ := newValue_good g.inv t
  unfold insertValue
  simp only [show (h.mem p).dt = .array from hdt, if_true]
  rcases hn : newValue h t with ⟨q, h1⟩
  rw [hn] at gr gw
  simp only at gr gw
  have g1 := g.grow gr
  have hlen := g1.arr_len
  have hd : ∀ x ∈ G, x ∉ F := fun x hx hF => g.live x hF (hG x hx)
  simp only [hlen]
  have ht : (if idx < 0 then (0 : Int) else idx).toNat = idx.toNat := by split <;> omega
  generalize hj : (if idx < 0 then (0 : Int) else idx) = j at ht
  have hj0 : 0 ≤ j := by rw [← hj]; split <;> omega
  refine ⟨c, ?_⟩
  by_cases hge : j < (xs.length : Int)
  · rw [if_pos hge]
    simp only [ht]
    have : (h1.upd p fun n => { n with arr := n.arr.take idx.toNat ++ [some q] ++ (h1.mem p).arr.drop idx.toNat }) =
        h1.upd p fun n => { n with arr := n.arr.take idx.toNat ++ [some q] ++ n.arr.drop idx.toNat } := rfl
    rw [this]
    obtain ⟨F', u⟩ := arr_insert g1 gw hd idx.toNat
    exact ⟨F', u.ofGrows gr (fun x hx => Or.inr (hG x hx))⟩
  · rw [if_neg hge]
    have hle : xs.length ≤ idx.toNat := by omega
    obtain ⟨F', u⟩ := arr_snoc g1 gw hd
    have e : arrIns xs idx (blankVal t c) = .arr (xs ++ [blankVal t c]) := by
      unfold arrIns; rw [List.take_of_length_le hle, List.drop_of_length_le hle]; simp
    rw [e]
    exact ⟨F', u.ofGrows gr (fun x hx => Or.inr (hG x hx))⟩

/-- `RemoveIndex` on an array. -/
theorem removeIndex_arr {h : Heap} {p : Ptr} {xs : List Val} {F : List Ptr} (g : Good h (some p) (.arr xs) F) (idx : Int) :
    ∃ F', Upd h F (removeIndex h p idx) (some p)
      (.arr (if 0 ≤ idx ∧ idx < xs.length then xs.take idx.toNat ++ xs.drop (idx.toNat + 1) else xs)) F' := by
  have hlen := g.arr_len
  have hdt := rep_dt g.rep
  unfold removeIndex
  rw [hlen]
  by_cases hr : 0 ≤ idx ∧ idx < xs.length
  · rw [if_pos ⟨hdt, inRange_iff.2 hr⟩, if_pos hr]
    exact arr_erase g _
  · rw [if_neg (fun h => hr (inRange_iff.1 h.2)), if_neg hr]
    exact ⟨F, g.upd_refl⟩

/-! ## Scalars -/

theorem setInt_upd {h : Heap} {p : Ptr} {v : Val} {F : List Ptr} (g : Good h (some p) v F) (h5 : 5 ≤ p) (x : BitVec 64) :
    ∃ e, Upd h F (setInt h p x) (some p) (.int e x) [p] ∧ (∀ e' c, v = .int e' c → e = e') ∧ (v.vt ≠ .int → e = 0) := by
  have hdt := rep_dt g.rep
  unfold setInt
  by_cases hi : (h.mem p).dt = .int
  · rw [if_pos hi]
    refine ⟨(h.mem p).ext, write_leaf g rfl h5 rfl (by simp [leafOf, hi]), ?_, ?_⟩
    · rintro e' c rfl
      obtain ⟨q, hq, -, hl⟩ := g.rep
      cases hq
      rw [view_ge h5] at hl
      simp [leafOf, hi] at hl
      exact hl.1
    · intro hn; rw [hi] at hdt; exact absurd hdt.symm hn
  · rw [if_neg hi]
    have u := reset_upd g h5 .int
    refine ⟨0, UpdX.trans u (write_leaf u.good rfl h5 rfl ?_), ?_, fun _ => rfl⟩
    · rw [reset_mem h5]; simp [leafOf, Node.reset]
    · rintro e' c rfl; exact absurd hdt hi

theorem setStr_upd {h : Heap} {p : Ptr} {s0 : Bytes} {F : List Ptr} (g : Good h (some p) (.str s0) F) (h5 : 5 ≤ p) (s : Bytes) :
    Upd h F (h.upd p (fun n => { n with str := s })) (some p) (.str s) [p] := by
  have hdt := rep_dt g.rep
  exact write_leaf g rfl h5 rfl (by simp [leafOf, hdt, Val.vt])

theorem setString_upd {h : Heap} {p : Ptr} {v : Val} {F : List Ptr} (g : Good h (some p) v F) (h5 : 5 ≤ p) (s : Bytes) :
    Upd h F (setString h p s) (some p) (.str s) [p] := by
  unfold setString
  by_cases hi : (h.mem p).dt = .string
  · rw [if_pos hi]
    exact write_leaf g rfl h5 rfl (by simp [leafOf, hi])
  · rw [if_neg hi]
    have u := reset_upd g h5 .string
    exact UpdX.trans u (write_leaf u.good rfl h5 rfl (by rw [reset_mem h5]; simp [leafOf, Node.reset]))

theorem setBool_upd {h : Heap} {p : Ptr} {v : Val} {F : List Ptr} (g : Good h (some p) v F) (h5 : 5 ≤ p) (b : Bool) :
    Upd h F (setBool h p b) (some p) (if b then .tru else .fls) [p] := by
  unfold setBool
  rw [if_neg (by rw [shared_iff]; omega)]
  cases b
  · exact reset_upd g h5 .false
  · exact reset_upd g h5 .true

theorem setDouble_upd {h : Heap} {p : Ptr} {v : Val} {F : List Ptr} (g : Good h (some p) v F) (h5 : 5 ≤ p) (x : F64) :
    Upd h F (setDouble h p x) (some p) (if v.vt = .dateTime then .dateTime x else .double x) [p] := by
  have hdt := rep_dt g.rep
  unfold setDouble
  rw [if_neg (by rw [shared_iff]; omega), hdt]
  by_cases hi : v.vt ≠ .double ∧ v.vt ≠ .dateTime
  · rw [if_pos hi, if_neg hi.2]
    have u := reset_upd g h5 .double
    exact UpdX.trans u (write_leaf u.good rfl h5 rfl (by rw [reset_mem h5]; simp [leafOf, Node.reset]))
  · rw [if_neg hi]
    refine write_leaf g rfl h5 rfl ?_
    split
    · rename_i hv; rw [hv] at hdt; simp [leafOf, hdt]
    · rename_i hv
      have : v.vt = .double := by
        cases hh : v.vt <;> simp_all
      rw [this] at hdt; simp [leafOf, hdt]

theorem setTime_upd {h : Heap} {p : Ptr} {v : Val} {F : List Ptr} (g : Good h (some p) v F) (h5 : 5 ≤ p) (x : F64) :
    Upd h F (setTime h p x) (some p) (if v.vt = .double then .double x else .dateTime x) [p] := by
  have hdt := rep_dt g.rep
  unfold setTime
  rw [hdt]
  by_cases hi : v.vt ≠ .double ∧ v.vt ≠ .dateTime
  · rw [if_pos hi, if_neg hi.1]
    have u := reset_upd g h5 .dateTime
    exact UpdX.trans u (write_leaf u.good rfl h5 rfl (by rw [reset_mem h5]; simp [leafOf, Node.reset]))
  · rw [if_neg hi]
    refine write_leaf g rfl h5 rfl ?_
    split
    · rename_i hv; rw [hv] at hdt; simp [leafOf, hdt]
    · rename_i hv
      have : v.vt = .dateTime := by
        cases hh : v.vt <;> simp_all
      rw [this] at hdt; simp [leafOf, hdt]

theorem setFloat_upd {h : Heap} {p : Ptr} {v : Val} {F : List Ptr} (g : Good h (some p) v F) (h5 : 5 ≤ p) (x : F32) :
    ∃ c, Upd h F (setFloat h p x) (some p) (.float (setLo32 c x)) [p] := by
  unfold setFloat
  rw [if_neg (by rw [shared_iff]; omega)]
  by_cases hi : (h.mem p).dt = .float
  · rw [if_neg (by simp [hi])]
    exact ⟨(h.mem p).cell, write_leaf g rfl h5 rfl (by simp [leafOf, hi])⟩
  · rw [if_pos hi]
    have u := reset_upd g h5 .float
    exact ⟨(h.mem p).cell, UpdX.trans u (write_leaf u.good rfl h5 rfl (by rw [reset_mem h5]; simp [leafOf, Node.reset]))⟩

end Dxs.Heap
