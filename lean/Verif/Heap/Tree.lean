import Verif.Heap.Rep

/-!
# Operations on proper trees

For every operation: the tree it leaves behind, and that nothing else changed.
-/

namespace Dxs.Heap

/-- The value of a node that allocation or `Reset` has just given the type `t`. -/
def blankVal (t : VT) (cell : BitVec 64) : Val :=
  match t with
  | .object => .obj false []
  | .array => .arr []
  | .string => .str []
  | .rawString => .raw []
  | .int => .int 0 cell
  | .float => .float cell
  | .double => .double cell
  | .dateTime => .dateTime cell
  | .binary => .bin 0 []
  | .exBinary => .exbin 0 []
  | .null => .null
  | .true => .tru
  | .false => .fls
  | .nan => .nan
  | .inf => .inf

@[simp] theorem blankVal_vt (t : VT) (c : BitVec 64) : (blankVal t c).vt = t := by cases t <;> rfl
theorem blankVal_ne_nil (t : VT) (c : BitVec 64) : blankVal t c ≠ .nil := by cases t <;> simp [blankVal]

theorem rep_blank {m : Ptr → Node} {q : Ptr} {t : VT} (hq : 5 ≤ q) (hb : Blank (m q) t) :
    Rep m (blankVal t (m q).cell) (some q) [q] := by
  have hv := view_ge (m := m) hq
  have hf : [q] = foot q := by simp [foot, Nat.not_lt.2 hq]
  cases t with
  | object => exact ⟨q, [], rfl, hq, rfl, hb.dt, hb.ku, by rw [hb.kvs]; exact ⟨rfl, rfl⟩⟩
  | array => exact ⟨q, [], rfl, hq, rfl, hb.dt, by rw [hb.arr]; exact ⟨rfl, rfl⟩⟩
  | _ => exact ⟨q, rfl, hf, by rw [hv]; simp [leafOf, hb.dt, hb.str, hb.ext, hb.bin]⟩

/-- Two types a node of which carries no data. -/
theorem vt_const_unique {x : Val} {t : VT} (hx : x ≠ .nil) (h : x.vt = t) (ht : (constOf t).isSome) (c : BitVec 64) : x = blankVal t c := by
  subst h
  cases x <;> simp_all [Val.vt, constOf, blankVal]

theorem Allocated.good {h h' : Heap} {q : Ptr} {t : VT} (a : Allocated h q h' t) :
    Good h' (some q) (blankVal t (h'.mem q).cell) [q] where
  inv := a.inv
  rep := rep_blank a.ge a.blank
  nodup := by simp
  live p hp := by simp at hp; subst hp; exact a.isnt

theorem Good.grow {h h' : Heap} {a : Option Ptr} {v : Val} {F : List Ptr} (g : Good h a v F) (gr : Grows h h') : Good h' a v F :=
  ⟨gr.inv, rep_frame g.rep ⟨fun q hq => gr.mem q (g.live q hq), fun _ hp => g.inv.dt_const gr.inv hp⟩, g.nodup,
   fun q hq ha => g.live q hq (gr.avail q ha)⟩

/-- Overwrite a tree after allocating. -/
theorem Upd.of {X : List Ptr} {h h1 h2 : Heap} {F F' G : List Ptr} {a : Option Ptr} {v : Val} (gr : Grows h h1) (g : Good h2 a v F')
    (f : Frame h1 F h2) (hs : ∀ q ∈ F', q ∈ F ∨ q ∈ G) (hG : ∀ q ∈ G, q ∈ X ∨ Avail h q) : UpdX X h F h2 a v F' :=
  ⟨g, (gr.frame F).trans f (fun _ hq => Or.inl hq), fun q hq => (hs q hq).imp id (hG q)⟩

theorem Good.upd_refl {h : Heap} {a : Option Ptr} {v : Val} {F : List Ptr} (g : Good h a v F) : Upd h F h a v F :=
  ⟨g, Frame.refl g.inv F, fun _ hq => Or.inl hq⟩

theorem Good.upd_grow {h h' : Heap} {a : Option Ptr} {v : Val} {F : List Ptr} (g : Good h a v F) (gr : Grows h h') : Upd h F h' a v F :=
  ⟨g.grow gr, gr.frame F, fun _ hq => Or.inl hq⟩

/-- Overwriting the member list of an object. -/
theorem write_obj {h : Heap} (I : Inv h) {p : Ptr} (h5 : 5 ≤ p) (hp : ¬Avail h p) {n : Node} (hd : n.dt = .object)
    (ho : n.owner = (h.mem p).owner) {kvs : List (Bytes × Val)} {F : List Ptr} (hr : RepM h.mem kvs n.kvs F)
    (hnd : (p :: F).Nodup) (hl : ∀ q ∈ F, ¬Avail h q) : Good (h.set p n) (some p) (.obj n.ku kvs) (p :: F) := by
  have hI : Inv (h.set p n) := I.set p n (fun h => by omega) (fun c hc => I.owner p c (ho ▸ hc))
  refine ⟨hI, ⟨p, F, rfl, h5, rfl, by simp [hd], by simp, ?_⟩, hnd, ?_⟩
  · rw [set_mem_same]
    refine repM_frame hr ⟨fun q hq => set_mem_ne _ _ ?_, fun _ hp => I.dt_const hI hp⟩
    rintro rfl
    exact (List.nodup_cons.1 hnd).1 hq
  · intro q hq
    rcases List.mem_cons.1 hq with rfl | hq
    · exact hp
    · exact hl q hq

/-- Overwriting the element list of an array. -/
theorem write_arr {h : Heap} (I : Inv h) {p : Ptr} (h5 : 5 ≤ p) (hp : ¬Avail h p) {n : Node} (hd : n.dt = .array)
    (ho : n.owner = (h.mem p).owner) {xs : List Val} {F : List Ptr} (hr : RepL h.mem xs n.arr F)
    (hnd : (p :: F).Nodup) (hl : ∀ q ∈ F, ¬Avail h q) : Good (h.set p n) (some p) (.arr xs) (p :: F) := by
  have hI : Inv (h.set p n) := I.set p n (fun h => by omega) (fun c hc => I.owner p c (ho ▸ hc))
  refine ⟨hI, ⟨p, F, rfl, h5, rfl, by simp [hd], ?_⟩, hnd, ?_⟩
  · rw [set_mem_same]
    refine repL_frame hr ⟨fun q hq => set_mem_ne _ _ ?_, fun _ hp => I.dt_const hI hp⟩
    rintro rfl
    exact (List.nodup_cons.1 hnd).1 hq
  · intro q hq
    rcases List.mem_cons.1 hq with rfl | hq
    · exact hp
    · exact hl q hq

/-- Overwriting a node by a leaf. -/
theorem write_leaf {h : Heap} {a : Option Ptr} {v w : Val} {F : List Ptr} (g : Good h a v F) {p : Ptr} (ha : a = some p) (h5 : 5 ≤ p) {n : Node}
    (ho : n.owner = (h.mem p).owner) (hw : leafOf n = some w) : Upd h F (h.set p n) a w [p] := by
  subst ha
  have hmem := rep_mem g.rep h5
  refine ⟨⟨?_, ?_, by simp, ?_⟩, ⟨?_, fun _ => id, ?_⟩, ?_⟩
  · exact g.inv.set p n (fun h => by omega) (fun c hc => g.inv.owner p c (ho ▸ hc))
  · rw [rep_leaf (leafOf_isLeaf hw).1]
    exact ⟨p, rfl, by simp [foot, Nat.not_lt.2 h5], by rw [view_ge h5]; simpa using hw⟩
  · intro q hq; simp at hq; subst hq; exact g.live q hmem
  · exact g.inv.set p n (fun h => by omega) (fun c hc => g.inv.owner p c (ho ▸ hc))
  · intro q _ hF _
    exact set_mem_ne _ _ (by rintro rfl; exact hF hmem)
  · intro q hq; simp at hq; subst hq; exact Or.inl hmem

/-- `Reset` of a node that is not a constant. -/
theorem reset_upd {h : Heap} {p : Ptr} {v : Val} {F : List Ptr} (g : Good h (some p) v F) (h5 : 5 ≤ p) (t : VT) :
    Upd h F (reset h p t) (some p) (blankVal t (h.mem p).cell) [p] := by
  have hmem := rep_mem g.rep h5
  have hn := reset_mem (h := h) h5 t
  refine ⟨⟨g.inv.reset p t, ?_, by simp, ?_⟩, Frame.reset g.inv t (fun _ => hmem), ?_⟩
  · have := rep_blank (m := (reset h p t).mem) h5 (t := t) (by rw [hn]; exact Blank.reset _ _)
    rw [hn] at this
    exact this
  · intro q hq; simp at hq; subst hq; rw [avail_reset]; exact g.live q hmem
  · intro q hq; simp at hq; subst hq; exact Or.inl hmem

/-! ## Member lists -/

theorem indexByName_keys {α β : Type} (E : Env) (ku : Bool) {xs : List (Bytes × α)} {ys : List (Bytes × β)}
    (hk : xs.map Prod.fst = ys.map Prod.fst) (name : Bytes) :
    (indexByName E ku xs name).1 = (indexByName E ku ys name).1 ∧
    (indexByName E ku xs name).2.1 = (indexByName E ku ys name).2.1 ∧
    (indexByName E ku xs name).2.2.map Prod.fst = (indexByName E ku ys name).2.2.map Prod.fst := by
  have hf : ∀ {γ : Type} (zs : List (Bytes × γ)), findKey E zs name = (zs.map Prod.fst).findIdx? (fun k => E.keyMatch k name) := by
    intro γ zs; simp [findKey, List.findIdx?_map, Function.comp_def]
  have hu : ∀ {γ : Type} (zs : List (Bytes × γ)), (unescKeys E ku zs).map Prod.fst = if ku then zs.map Prod.fst else (zs.map Prod.fst).map E.unesc := by
    intro γ zs; unfold unescKeys; split <;> simp
  have h1 : findKey E xs name = findKey E ys name := by rw [hf, hf, hk]
  have h2 : (unescKeys E ku xs).map Prod.fst = (unescKeys E ku ys).map Prod.fst := by rw [hu, hu, hk]
  have h3 : findKey E (unescKeys E ku xs) name = findKey E (unescKeys E ku ys) name := by rw [hf, hf, h2]
  unfold indexByName
  rw [h1, h3]
  split
  · cases findKey E ys name <;> simp [h2, hk]
  · simp [h2]

theorem indexByName_snd {α : Type} (E : Env) (ku : Bool) (xs : List (Bytes × α)) (name : Bytes) :
    (indexByName E ku xs name).2.2.map Prod.snd = xs.map Prod.snd := by
  have hu : (unescKeys E ku xs).map Prod.snd = xs.map Prod.snd := by
    unfold unescKeys; split <;> simp
  unfold indexByName
  split
  · cases findKey E xs name <;> simp [hu]
  · simp [hu]

theorem indexByName_length {α : Type} (E : Env) (ku : Bool) (xs : List (Bytes × α)) (name : Bytes) :
    (indexByName E ku xs name).2.2.length = xs.length := by
  have := congrArg List.length (indexByName_snd E ku xs name)
  simpa using this

theorem indexByName_lt {α : Type} (E : Env) (ku : Bool) (xs : List (Bytes × α)) (name : Bytes) {i : Nat}
    (h : (indexByName E ku xs name).1 = some i) : i < xs.length := by
  have hf : ∀ (zs : List (Bytes × α)) j, findKey E zs name = some j → j < zs.length := by
    intro zs j hj
    exact (List.findIdx?_eq_some_iff_getElem.1 hj).1
  have hl : (unescKeys E ku xs).length = xs.length := by unfold unescKeys; split <;> simp
  unfold indexByName at h
  split at h
  · split at h
    · rename_i j hj; simp at h; subst h; exact hf _ _ hj
    · have := hf _ _ h; omega
  · have := hf _ _ h; omega

theorem modify_fst {α : Type} (xs : List (Bytes × α)) (i : Nat) (w : α) :
    (xs.modify i (fun kv => (kv.1, w))).map Prod.fst = xs.map Prod.fst := by
  apply List.ext_getElem?
  intro j
  simp only [List.getElem?_map, List.getElem?_modify]
  by_cases hij : i = j
  · subst hij; simp; cases xs[i]? <;> simp
  · simp [hij]

theorem modify_snd {α : Type} (xs : List (Bytes × α)) (i : Nat) (w : α) :
    (xs.modify i (fun kv => (kv.1, w))).map Prod.snd = (xs.map Prod.snd).set i w := by
  apply List.ext_getElem?
  intro j
  simp only [List.getElem?_map, List.getElem?_modify, List.getElem?_set]
  by_cases hij : i = j
  · subst hij
    cases h : xs[i]? with
    | none => simp at h; simp [Nat.not_lt.2 h]
    | some x => have := (List.getElem?_eq_some_iff.1 h).1; simp [this]
  · simp [hij]

theorem modify_modify {α : Type} (xs : List (Bytes × α)) (i : Nat) (w w' : α) :
    (xs.modify i (fun kv => (kv.1, w))).modify i (fun kv => (kv.1, w')) = xs.modify i (fun kv => (kv.1, w')) := by
  apply List.ext_getElem?
  intro j
  simp only [List.getElem?_modify]
  by_cases hij : i = j
  · subst hij; simp; cases xs[i]? <;> simp
  · simp [hij]

/-- Where `SetKey` puts its value. -/
def objPos (E : Env) (ku : Bool) {α : Type} (kvs : List (Bytes × α)) (name : Bytes) : Nat :=
  (indexByName E ku kvs name).1.getD kvs.length

/-- The member list after `SetKey`, given the value found or put there. -/
def objPut (E : Env) (ku : Bool) (kvs : List (Bytes × Val)) (name : Bytes) (w : Val) : Val :=
  .obj (setKeyValueObj E ku kvs name w).1 (setKeyValueObj E ku kvs name w).2

theorem setKid_objPut (E : Env) (ku : Bool) (kvs : List (Bytes × Val)) (name : Bytes) (w w' : Val) :
    Val.setKid (objPut E ku kvs name w) (objPos E ku kvs name) w' = objPut E ku kvs name w' := by
  unfold objPut objPos setKeyValueObj
  have hl := indexByName_length E ku kvs name
  rcases hi : indexByName E ku kvs name with ⟨i, ku', kvs'⟩
  rw [hi] at hl
  simp only at hl
  cases i with
  | some i => simp [Val.setKid, modify_modify]
  | none =>
    simp only [Val.setKid, Option.getD_none, ← hl]
    congr 1
    apply List.ext_getElem?
    intro j
    simp only [List.getElem?_modify, List.getElem?_append]
    by_cases hj : j < kvs'.length
    · have : kvs'.length ≠ j := by omega
      simp [hj, this]
    · by_cases he : kvs'.length = j
      · subst he; simp
      · simp [hj, he]
        have : j - kvs'.length ≠ 0 := by omega
        simp [this]

theorem kids_objPut (E : Env) (ku : Bool) (kvs : List (Bytes × Val)) (name : Bytes) (w : Val) :
    (Val.kids (objPut E ku kvs name w))[objPos E ku kvs name]? = some w := by
  unfold objPut objPos setKeyValueObj
  have hl := indexByName_length E ku kvs name
  have hlt := @indexByName_lt _ E ku kvs name
  rcases hi : indexByName E ku kvs name with ⟨i, ku', kvs'⟩
  rw [hi] at hl hlt
  simp only at hl hlt
  cases i with
  | some i =>
    have := hlt rfl
    simp only [Val.kids, modify_snd, Option.getD_some]
    simp [List.getElem?_set]; omega
  | none => simp [Val.kids, ← hl]

/-! ## Lists of children -/

/-- Replacing an element. -/
theorem repL_set {m : Ptr → Node} {xs : List Val} {ps : List (Option Ptr)} {F : List Ptr} (h : RepL m xs ps F) {i : Nat}
    (hi : i < xs.length) {w : Val} {b : Option Ptr} {G : List Ptr} (hw : Rep m w b G) :
    ∃ F', RepL m (xs.set i w) (ps.set i b) F' ∧ (∀ q ∈ F', q ∈ F ∨ q ∈ G) ∧
      (F.Nodup → G.Nodup → (∀ q ∈ G, q ∉ F) → F'.Nodup) := by
  obtain ⟨q, F1, Fi, F2, hq, hps, rfl, h1, h2, h3⟩ := repL_cut h (List.getElem?_eq_getElem hi)
  have hi' : i < ps.length := by rw [repL_length h]; exact hi
  refine ⟨F1 ++ G ++ F2, ?_, ?_, ?_⟩
  · rw [List.set_eq_take_append_cons_drop, if_pos hi, List.set_eq_take_append_cons_drop, if_pos hi']
    exact repL_glue h1 hw h3
  · intro q hq; simp at hq ⊢; grind
  · intro hF hG hd
    simp only [List.append_assoc, List.nodup_append, List.mem_append] at hF ⊢
    grind

/-- Appending an element. -/
theorem repL_snoc {m : Ptr → Node} {xs : List Val} {ps : List (Option Ptr)} {F : List Ptr} (h : RepL m xs ps F)
    {w : Val} {b : Option Ptr} {G : List Ptr} (hw : Rep m w b G) : RepL m (xs ++ [w]) (ps ++ [b]) (F ++ G) :=
  repL_append.2 ⟨ps, [b], F, G, rfl, rfl, h, repL_single.2 hw⟩

/-- Removing an element. -/
theorem repL_erase {m : Ptr → Node} {xs : List Val} {ps : List (Option Ptr)} {F : List Ptr} (h : RepL m xs ps F) {i : Nat} :
    ∃ F', RepL m (xs.eraseIdx i) (ps.eraseIdx i) F' ∧ (∀ q ∈ F', q ∈ F) ∧ (F.Nodup → F'.Nodup) := by
  by_cases hi : i < xs.length
  · obtain ⟨q, F1, Fi, F2, hq, hps, rfl, h1, h2, h3⟩ := repL_cut h (List.getElem?_eq_getElem hi)
    refine ⟨F1 ++ F2, ?_, ?_, ?_⟩
    · rw [List.eraseIdx_eq_take_drop_succ, List.eraseIdx_eq_take_drop_succ]
      exact repL_append.2 ⟨_, _, F1, F2, rfl, rfl, h1, h3⟩
    · intro q hq; simp at hq ⊢; grind
    · intro hF
      simp only [List.append_assoc, List.nodup_append, List.mem_append] at hF ⊢
      grind
  · refine ⟨F, ?_, fun _ => id, id⟩
    rw [List.eraseIdx_of_length_le (by omega), List.eraseIdx_of_length_le (by rw [repL_length h]; omega)]
    exact h

/-- Inserting an element. -/
theorem repL_insert {m : Ptr → Node} {xs : List Val} {ps : List (Option Ptr)} {F : List Ptr} (h : RepL m xs ps F) (i : Nat)
    {w : Val} {b : Option Ptr} {G : List Ptr} (hw : Rep m w b G) :
    ∃ F', RepL m (xs.take i ++ [w] ++ xs.drop i) (ps.take i ++ [b] ++ ps.drop i) F' ∧ (∀ q ∈ F', q ∈ F ∨ q ∈ G) ∧
      (F.Nodup → G.Nodup → (∀ q ∈ G, q ∉ F) → F'.Nodup) := by
  have h' := h
  rw [← List.take_append_drop i xs] at h'
  obtain ⟨ps1, ps2, F1, F2, rfl, rfl, h1, h2⟩ := repL_append.1 h'
  have hl := repL_length h
  have hl1 := repL_length h1
  have hl2 := repL_length h2
  have e1 : (ps1 ++ ps2).take i = ps1 ∧ (ps1 ++ ps2).drop i = ps2 := by
    simp at hl1 hl2 hl
    by_cases hi : i ≤ xs.length
    · have : ps1.length = i := by omega
      subst this
      simp
    · have h0 : ps2 = [] := by
        apply List.eq_nil_of_length_eq_zero; omega
      subst h0
      have : ps1.length ≤ i := by omega
      simp [List.take_of_length_le this, List.drop_of_length_le this]
  rw [e1.1, e1.2]
  refine ⟨F1 ++ G ++ F2, ?_, ?_, ?_⟩
  · have := repL_glue h1 hw h2
    simpa using this
  · intro q hq; simp at hq ⊢; grind
  · intro hF hG hd
    simp only [List.append_assoc, List.nodup_append, List.mem_append] at hF ⊢
    grind

/-- A child of a tree. -/
theorem Good.kid {h : Heap} {p : Ptr} {v x : Val} {F : List Ptr} {i : Nat} (g : Good h (some p) v F) (hx : (Val.kids v)[i]? = some x) :
    ∃ b Fi, (Node.kids (h.mem p))[i]? = some b ∧ Good h b x Fi ∧ (∀ q ∈ Fi, q ∈ F) ∧
      ∀ X h' x' Fi', UpdX X h Fi h' b x' Fi' → (∀ q ∈ X, q ∉ F) → ∃ F', UpdX X h F h' (some p) (Val.setKid v i x') F' := by
  obtain ⟨b, Fi, hpt, gi, hsub, hupd⟩ := g.inside (π := [i]) (v := x) (by simp [Val.sub, hx])
  refine ⟨b, Fi, ?_, gi, hsub, ?_⟩
  · simp only [ptrAt, Option.bind_eq_some_iff] at hpt
    obtain ⟨b', hb, he⟩ := hpt
    simp at he; subst he; exact hb
  · intro X h' x' Fi' u hX
    have := hupd X h' x' Fi' u hX
    simpa only [Val.subst, hx] using this

end Dxs.Heap
