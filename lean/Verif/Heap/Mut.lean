import Verif.Heap.World
import Verif.Heap.Keys

/-!
# Operations on one node of a value, whatever it holds

`Moves h F p h'`: the operation left a proper tree at `p` and touched nothing outside of it.
-/

namespace Dxs.Heap

/-- The value at `p` (nodes `F`) is a proper tree afterwards, nothing else changed. -/
def Moves (h : Heap) (F : List Ptr) (p : Ptr) (h' : Heap) : Prop := ∃ v' F', Upd h F h' (some p) v' F'

theorem Moves.of {h : Heap} {F : List Ptr} {p : Ptr} {h' : Heap} {v' : Val} {F' : List Ptr} (u : Upd h F h' (some p) v' F') : Moves h F p h' := ⟨v', F', u⟩

section
variable {h : Heap} {p : Ptr} {v : Val} {F : List Ptr}

theorem vt_obj {v : Val} (hv : v.vt = .object) (hn : v ≠ .nil) : ∃ ku kvs, v = .obj ku kvs := by
  cases v <;> simp [Val.vt] at hv hn ⊢

theorem vt_arr {v : Val} (hv : v.vt = .array) (hn : v ≠ .nil) : ∃ xs, v = .arr xs := by
  cases v <;> simp [Val.vt] at hv hn ⊢

theorem toObj (g : Good h (some p) v F) (h5 : 5 ≤ p) :
    ∃ ku kvs F0, Upd h F (if (h.mem p).dt = .object then h else reset h p .object) (some p) (.obj ku kvs) F0 := by
  split
  · rename_i hd
    obtain ⟨ku, kvs, rfl⟩ := vt_obj ((rep_dt g.rep).symm.trans hd) (rep_ne_nil g.rep)
    exact ⟨ku, kvs, F, g.upd_refl⟩
  · exact ⟨_, _, _, reset_upd g h5 .object⟩

theorem toArr (g : Good h (some p) v F) (h5 : 5 ≤ p) :
    ∃ xs F0, Upd h F (if (h.mem p).dt = .array then h else reset h p .array) (some p) (.arr xs) F0 := by
  split
  · rename_i hd
    obtain ⟨xs, rfl⟩ := vt_arr ((rep_dt g.rep).symm.trans hd) (rep_ne_nil g.rep)
    exact ⟨xs, F, g.upd_refl⟩
  · exact ⟨_, _, reset_upd g h5 .array⟩

/-- The operations begin by giving the node the right type. -/
theorem arr_first (h : Heap) (h5 : 5 ≤ p) :
    ((if (h.mem p).dt = .array then h else reset h p .array).mem p).dt = .array ∧
    ((if (h.mem p).dt = .array then h else reset h p .array).mem p).owner = (h.mem p).owner := by
  split
  · exact ⟨by assumption, rfl⟩
  · exact ⟨reset_dt h5 _, reset_owner _ _ _ _⟩

theorem obj_first (h : Heap) (h5 : 5 ≤ p) :
    ((if (h.mem p).dt = .object then h else reset h p .object).mem p).dt = .object ∧
    ((if (h.mem p).dt = .object then h else reset h p .object).mem p).owner = (h.mem p).owner := by
  split
  · exact ⟨by assumption, rfl⟩
  · exact ⟨reset_dt h5 _, reset_owner _ _ _ _⟩

/-- What `SetIndex`/`SetKey` return can be used to change the value. -/
structure Hands (h : Heap) (F : List Ptr) (p : Ptr) (t : VT) (q : Ptr) (h1 : Heap) : Prop where
  child : ∃ w Fq, Good h1 (some q) w Fq ∧ w.vt = t ∧ ((constOf t).isNone → 5 ≤ q) ∧
    ∀ h2 w' Fq', Upd h1 Fq h2 (some q) w' Fq' → Moves h F p h2

theorem Hands.moves {t : VT} {q : Ptr} {h1 : Heap} (a : Hands h F p t q h1) : Moves h F p h1 := by
  obtain ⟨w, Fq, g, -, -, hu⟩ := a.child
  exact hu h1 w Fq g.upd_refl

theorem Hands.after {h0 : Heap} {F0 : List Ptr} {v0 : Val} {t : VT} {q : Ptr} {h1 : Heap} (a : Hands h0 F0 p t q h1) (u : Upd h F h0 (some p) v0 F0) :
    Hands h F p t q h1 := by
  obtain ⟨w, Fq, g, hw, h5, hu⟩ := a.child
  exact ⟨w, Fq, g, hw, h5, fun h2 w' Fq' u2 => by obtain ⟨v', F', u3⟩ := hu h2 w' Fq' u2; exact ⟨v', F', UpdX.trans u u3⟩⟩

theorem setIndex_any (g : Good h (some p) v F) (h5 : 5 ≤ p) (idx : Int) (t : VT) :
    Hands h F p t (setIndex h p idx t).1 (setIndex h p idx t).2 := by
  obtain ⟨xs, F0, u⟩ := toArr g h5
  obtain ⟨hd, ho⟩ := arr_first h h5
  have e : setIndex h p idx t = setIndex (if (h.mem p).dt = .array then h else reset h p .array) p idx t := by
    unfold setIndex setIndexCached
    rw [ho]
    simp only [hd, if_true]
  rw [e]
  generalize (if (h.mem p).dt = .array then h else reset h p .array) = h0 at u
  obtain ⟨w, Fq, hs, gq, hq, hu⟩ := setIndex_then u.good idx t
  refine Hands.after ⟨w, Fq, gq, hs.vt.1, hq, fun h2 w' Fq' u2 => ?_⟩ u
  obtain ⟨F', u3⟩ := hu h2 w' Fq' u2
  exact Moves.of u3

/-- A member that is nil makes `SetKey` panic. -/
theorem setKeyCached_nil (E : Env) {ku : Bool} {kvs : List (Bytes × Val)} (g : Good h (some p) (.obj ku kvs) F) (name : Bytes) (t : VT) (c : Option CId)
    (hnil : objOld E ku kvs name = some .nil) : setKeyCached E h p name t c = .panic := by
  have hdt := rep_dt g.rep
  obtain ⟨hidx, u1, -⟩ := objIndex_upd E g name
  unfold setKeyCached
  rw [if_neg (by simp [hdt, Val.vt]), if_pos (by simpa [Val.vt] using hdt)]
  unfold objOld at hnil
  have hsnd := indexByName_snd E ku kvs name
  rcases hi : indexByName E ku kvs name with ⟨i, ku', kvs'⟩
  rw [hi] at hidx u1 hsnd hnil
  simp only at hidx u1 hsnd hnil
  rcases ho : objIndex E h p name with ⟨i', h1⟩
  rw [ho] at hidx u1
  simp only at hidx u1
  subst hidx
  cases i' with
  | none => simp at hnil
  | some i =>
    simp only [Option.bind_some] at hnil
    obtain ⟨b, Fi, hb, gb, -, -⟩ := u1.good.kid (i := i) (x := .nil) (by simp only [Val.kids, hsnd, hnil])
    rw [kids_obj (rep_dt u1.good.rep)] at hb
    obtain ⟨rfl, -⟩ := gb.rep
    have hget : ((h1.mem p).kvs[i]?).bind Prod.snd = none := by
      rw [List.getElem?_map] at hb
      cases hkv : (h1.mem p).kvs[i]? with
      | none => rfl
      | some kv => rw [hkv] at hb; simp at hb; simp [hb]
    simp only [ho, hget]

theorem setKey_any {E : Env} (g : Good h (some p) v F) (h5 : 5 ≤ p) (k : Bytes) (t : VT) {q : Ptr} {h1 : Heap}
    (e : setKey E h p k t = .ok (q, h1)) : Hands h F p t q h1 := by
  by_cases ha : (h.mem p).dt = .array ∧ strIdx E k ≠ -1
  · have e' : setKey E h p k t = .ok (setIndex h p (strIdx E k) t) := by
      unfold setKey setKeyCached; rw [if_pos ha]
    rw [e', Res.ok.injEq] at e
    have := setIndex_any g h5 (strIdx E k) t
    rw [e] at this; exact this
  · obtain ⟨ku, kvs, F0, u⟩ := toObj g h5
    obtain ⟨hd, ho⟩ := obj_first h h5
    have e' : setKey E h p k t = setKey E (if (h.mem p).dt = .object then h else reset h p .object) p k t := by
      by_cases hb : (h.mem p).dt = .object
      · rw [if_pos hb]
      · rw [if_neg hb] at hd ho ⊢
        unfold setKey setKeyCached
        have h3 : ¬ (((reset h p .object).mem p).dt = .array ∧ strIdx E k ≠ -1) := by rw [hd]; simp
        simp only [if_neg ha, if_neg h3, if_neg hb, if_pos hd, ho]
    rw [e'] at e
    generalize (if (h.mem p).dt = .object then h else reset h p .object) = h0 at u e
    by_cases hnil : objOld E ku kvs k = some .nil
    · unfold setKey at e
      rw [setKeyCached_nil E u.good k t _ hnil] at e; cases e
    · obtain ⟨q', h1', w, he, hq, hs, Fq, gq, hu⟩ := setKey_then E u.good k t hnil
      rw [he] at e
      cases e
      refine Hands.after ⟨w, Fq, gq, hs.vt.1, fun _ => hq, fun h2 w' Fq' u2 => ?_⟩ u
      obtain ⟨F', u3⟩ := hu h2 w' Fq' u2
      exact Moves.of u3

/-- `SetKeyValue` with the nodes of a value that is not part of this one. -/
theorem setKeyValue_any (E : Env) (g : Good h (some p) v F) (h5 : 5 ≤ p) (k : Bytes) {b : Option Ptr} {w : Val} {G : List Ptr}
    (gw : Good h b w G) (hd : ∀ q ∈ G, q ∉ F) : ∃ v' F', UpdX G h F (setKeyValue E h p k b) (some p) v' F' := by
  by_cases ha : (h.mem p).dt = .array ∧ strIdx E k ≠ -1
  · have e' : setKeyValue E h p k b = setIndexValue h p (strIdx E k) b := by unfold setKeyValue; rw [if_pos ha]
    rw [e']
    obtain ⟨xs, rfl⟩ := vt_arr ((rep_dt g.rep).symm.trans ha.1) (rep_ne_nil g.rep)
    obtain ⟨F', u⟩ := setIndexValue_arr g (strIdx E k) gw hd
    exact ⟨_, F', u⟩
  · obtain ⟨ku, kvs, F0, u⟩ := toObj g h5
    obtain ⟨hdt, -⟩ := obj_first h h5
    have e' : setKeyValue E h p k b = setKeyValue E (if (h.mem p).dt = .object then h else reset h p .object) p k b := by
      by_cases hb : (h.mem p).dt = .object
      · rw [if_pos hb]
      · rw [if_neg hb] at hdt ⊢
        unfold setKeyValue
        have h3 : ¬ (((reset h p .object).mem p).dt = .array ∧ strIdx E k ≠ -1) := by rw [hdt]; simp
        simp only [if_neg ha, if_neg h3, if_neg hb, if_pos hdt]
    rw [e']
    generalize (if (h.mem p).dt = .object then h else reset h p .object) = h0 at u
    have hd' : ∀ q ∈ G, q ∉ F0 := fun q hq hF => (u.sub q hF).elim (hd q hq) (fun h => h.elim (by simp) (gw.live q hq))
    obtain ⟨F', u2⟩ := setKeyValue_obj E u.good k (gw.frame u.frame hd) hd'
    exact ⟨_, F', UpdX.trans u u2⟩

theorem setIndexValue_any (g : Good h (some p) v F) (h5 : 5 ≤ p) (idx : Int) {b : Option Ptr} {w : Val} {G : List Ptr}
    (gw : Good h b w G) (hd : ∀ q ∈ G, q ∉ F) : ∃ v' F', UpdX G h F (setIndexValue h p idx b) (some p) v' F' := by
  obtain ⟨xs, F0, u⟩ := toArr g h5
  obtain ⟨hdt, -⟩ := arr_first h h5
  have e' : setIndexValue h p idx b = setIndexValue (if (h.mem p).dt = .array then h else reset h p .array) p idx b := by
    unfold setIndexValue
    simp only [hdt, if_true]
  rw [e']
  generalize (if (h.mem p).dt = .array then h else reset h p .array) = h0 at u
  have hd' : ∀ q ∈ G, q ∉ F0 := fun q hq hF => (u.sub q hF).elim (hd q hq) (fun h => h.elim (by simp) (gw.live q hq))
  obtain ⟨F', u2⟩ := setIndexValue_arr u.good idx (gw.frame u.frame hd) hd'
  exact ⟨_, F', UpdX.trans u u2⟩

theorem insertValue_any (g : Good h (some p) v F) (h5 : 5 ≤ p) (idx : Int) (t : VT) : Moves h F p (insertValue h p idx t).2 := by
  obtain ⟨xs, F0, u⟩ := toArr g h5
  obtain ⟨hdt, -⟩ := arr_first h h5
  have e' : insertValue h p idx t = insertValue (if (h.mem p).dt = .array then h else reset h p .array) p idx t := by
    unfold insertValue
    simp only [hdt, if_true]
  rw [e']
  generalize (if (h.mem p).dt = .array then h else reset h p .array) = h0 at u
  obtain ⟨c, F', u2⟩ := insertValue_arr u.good idx t
  exact Moves.of (UpdX.trans u u2)

theorem Moves.refl (g : Good h (some p) v F) : Moves h F p h := Moves.of g.upd_refl

theorem removeKey_any (E : Env) (g : Good h (some p) v F) (k : Bytes) : Moves h F p (removeKey E h p k) := by
  by_cases ho : (h.mem p).dt = .object
  · obtain ⟨ku, kvs, rfl⟩ := vt_obj ((rep_dt g.rep).symm.trans ho) (rep_ne_nil g.rep)
    obtain ⟨F', u⟩ := removeKey_obj E g k
    exact Moves.of u
  · unfold removeKey; rw [if_neg ho]; exact Moves.refl g

theorem extractValue_any (E : Env) (g : Good h (some p) v F) (k : Bytes) : Moves h F p (extractValue E h p k).2 := by
  by_cases ho : (h.mem p).dt = .object
  · obtain ⟨ku, kvs, rfl⟩ := vt_obj ((rep_dt g.rep).symm.trans ho) (rep_ne_nil g.rep)
    obtain ⟨F', G, u, -⟩ := extractValue_obj E g k
    exact Moves.of u
  · unfold extractValue; rw [if_neg ho]; exact Moves.refl g

theorem removeIndex_any (g : Good h (some p) v F) (idx : Int) : Moves h F p (removeIndex h p idx) := by
  by_cases ho : (h.mem p).dt = .array
  · obtain ⟨xs, rfl⟩ := vt_arr ((rep_dt g.rep).symm.trans ho) (rep_ne_nil g.rep)
    obtain ⟨F', u⟩ := removeIndex_arr g idx
    exact Moves.of u
  · unfold removeIndex; rw [if_neg (fun h => ho h.1)]; exact Moves.refl g

/-- A lookup returns a node of the tree. -/
theorem valueByName_any (E : Env) (g : Good h (some p) v F) (k : Bytes) :
    ∃ v1 F1, Upd h F (valueByName E h p k).2 (some p) v1 F1 ∧ (∀ q, (valueByName E h p k).1 = some q →
      ∃ w Fq, Good (valueByName E h p k).2 (some q) w Fq ∧ ∀ h2 w' Fq', Upd (valueByName E h p k).2 Fq h2 (some q) w' Fq' → Moves h F p h2) := by
  by_cases ho : (h.mem p).dt = .object
  · obtain ⟨ku, kvs, rfl⟩ := vt_obj ((rep_dt g.rep).symm.trans ho) (rep_ne_nil g.rep)
    obtain ⟨hidx, u1, -⟩ := objIndex_upd E g k
    have e : valueByName E h p k = objGet E h p k := by unfold valueByName; rw [ho]
    rw [e]
    unfold objGet
    have hlt := @indexByName_lt _ E ku kvs k
    have hl := indexByName_length E ku kvs k
    rcases hi : indexByName E ku kvs k with ⟨i, ku', kvs'⟩
    rw [hi] at hidx u1 hlt hl
    simp only at hidx u1 hlt hl
    rcases hoo : objIndex E h p k with ⟨i', h1⟩
    rw [hoo] at hidx u1
    simp only at hidx u1 ⊢
    subst hidx
    refine ⟨_, _, u1, ?_⟩
    intro q hq
    cases i' with
    | none => cases hq
    | some i =>
      simp only [Option.bind_some] at hq
      obtain ⟨x, hx⟩ : ∃ x, (kvs'.map Prod.snd)[i]? = some x := ⟨_, List.getElem?_eq_getElem (by have := hlt rfl; simp; omega)⟩
      obtain ⟨b, Fi, hb, gb, -, hup⟩ := u1.good.kid (i := i) (x := x) (by simp only [Val.kids, hx])
      rw [kids_obj (rep_dt u1.good.rep), List.getElem?_map] at hb
      have : b = some q := by
        cases hkv : (h1.mem p).kvs[i]? with
        | none => rw [hkv] at hb; cases hb
        | some kv => rw [hkv] at hb hq; simp at hb hq; rw [← hb, hq]
      subst this
      refine ⟨x, Fi, gb, fun h2 w' Fq' u2 => ?_⟩
      obtain ⟨F', u3⟩ := hup [] h2 w' Fq' u2 (by simp)
      exact Moves.of (UpdX.trans u1 u3)
  · by_cases ha : (h.mem p).dt = .array
    · obtain ⟨xs, rfl⟩ := vt_arr ((rep_dt g.rep).symm.trans ha) (rep_ne_nil g.rep)
      have e : valueByName E h p k = (if inRange (strIdx E k) (h.mem p).arr.length then ((h.mem p).arr[(strIdx E k).toNat]?).bind id else none, h) := by
        unfold valueByName; rw [ha]; simp only; split <;> rfl
      rw [e]
      refine ⟨_, _, g.upd_refl, ?_⟩
      intro q hq
      simp only at hq
      split at hq
      · rename_i hr
        have hr := inRange_iff.1 hr
        rw [g.arr_len] at hr
        obtain ⟨x, hx⟩ : ∃ x, xs[(strIdx E k).toNat]? = some x := ⟨_, List.getElem?_eq_getElem (by omega)⟩
        obtain ⟨b, Fi, hb, gb, -, hup⟩ := g.kid (i := (strIdx E k).toNat) (x := x) hx
        rw [kids_arr ha] at hb
        rw [hb] at hq
        simp only [Option.bind_some, id_eq] at hq
        subst hq
        refine ⟨x, Fi, gb, fun h2 w' Fq' u2 => ?_⟩
        obtain ⟨F', u3⟩ := hup [] h2 w' Fq' u2 (by simp)
        exact Moves.of u3
      · cases hq
    · have e : valueByName E h p k = (none, h) := by
        unfold valueByName; split <;> first | contradiction | rfl
      rw [e]
      exact ⟨_, _, g.upd_refl, by simp⟩

theorem valueByPath_any (E : Env) : ∀ (path : List Bytes) {h : Heap} {p : Ptr} {v : Val} {F : List Ptr}, Good h (some p) v F →
    Moves h F p (valueByPath E h p path).2
  | [], _, _, _, _, g => Moves.refl g
  | k :: path, h, p, v, F, g => by
    obtain ⟨v1, F1, u, hq⟩ := valueByName_any E g k
    rw [valueByPath]
    generalize valueByName E h p k = r at u hq
    obtain ⟨_ | q, h1⟩ := r
    · exact Moves.of u
    · obtain ⟨w, Fq, gq, hup⟩ := hq q rfl
      obtain ⟨w', Fq', u2⟩ := valueByPath_any E path gq
      exact hup _ w' Fq' u2

theorem items_any (E : Env) (g : Good h (some p) v F) (idx : Int) : Moves h F p (items E h p idx).2 := by
  by_cases ho : (h.mem p).dt = .object
  · obtain ⟨ku, kvs, rfl⟩ := vt_obj ((rep_dt g.rep).symm.trans ho) (rep_ne_nil g.rep)
    unfold items
    simp only [ho]
    split
    · obtain ⟨F0, rfl, h5, hdt, hk, hm, hp0, hn0, hav⟩ := g.obj_inv
      obtain ⟨hkeys, hl⟩ := repM_iff.1 hm
      have hu : ∀ {γ : Type} (zs : List (Bytes × γ)), (unescKeys E ku zs).map Prod.fst = if ku then zs.map Prod.fst else (zs.map Prod.fst).map E.unesc := by
        intro γ zs; unfold unescKeys; split <;> simp
      have hs : ∀ {γ : Type} (zs : List (Bytes × γ)), (unescKeys E ku zs).map Prod.snd = zs.map Prod.snd := by
        intro γ zs; unfold unescKeys; split <;> simp
      refine Moves.of (obj_write (X := []) g (n := { h.mem p with dt := .object, ku := true, kvs := unescKeys E (h.mem p).ku (h.mem p).kvs }) rfl rfl (F' := F0)
        (kvs' := unescKeys E ku kvs) (repM_iff.2 ⟨?_, ?_⟩) hn0 ?_ (by simp))
      · rw [hk, hu, hu, hkeys]
      · rw [hk, hs, hs]; exact hl
      · intro q hq
        exact Or.inl ⟨by simp [hq], by rintro rfl; exact hp0 hq⟩
    · exact Moves.refl g
  · have : (items E h p idx).2 = h := by
      unfold items; simp only
      split
      · split <;> rfl
      · contradiction
      · rfl
    rw [this]; exact Moves.refl g

theorem string_any (E : Env) (json : Res Bytes) (g : Good h (some p) v F) (h5 : 5 ≤ p) : Moves h F p (h.set p (getString E json (h.mem p)).2) := by
  by_cases hr : (h.mem p).dt = .rawString
  · have e : (getString E json (h.mem p)).2 = { h.mem p with dt := .string, str := E.unesc (h.mem p).str } := by simp [getString, hr]
    rw [e]
    exact Moves.of (write_leaf g rfl h5 rfl rfl)
  · have e : (getString E json (h.mem p)).2 = h.mem p := by
      unfold getString
      split <;> first | rfl | contradiction
    rw [e, set_self]; exact Moves.refl g

theorem setBinary_any (g : Good h (some p) v F) (h5 : 5 ≤ p) (b : Bytes) : Moves h F p (setBinary h p b) := by
  unfold setBinary
  split
  · rename_i hd
    exact Moves.of (write_leaf (w := .bin (h.mem p).ext b) g rfl h5 rfl (by simp [leafOf, hd]))
  · rename_i hd
    split
    · rename_i t _ _
      exact Moves.of (write_leaf (w := .exbin (h.mem p).ext (t :: b)) g rfl h5 rfl (by simp [leafOf, hd]))
    · have u := reset_upd g h5 .binary
      exact Moves.of (UpdX.trans u (write_leaf (w := .bin 0 b) u.good rfl h5 rfl (by simp [leafOf, reset_mem h5, Node.reset])))
  · exact Moves.refl g

theorem setExtType_any (g : Good h (some p) v F) (h5 : 5 ≤ p) (t : UInt8) : Moves h F p (setExtType h p t) := by
  unfold setExtType
  split
  · rename_i hd
    exact Moves.of (write_leaf (w := .exbin (h.mem p).ext (t :: (h.mem p).bin.tail)) g rfl h5 rfl (by simp [leafOf, hd]))
  · exact Moves.refl g

end

/-! ## The operations -/

/-- An operation on one node. -/
inductive Mut where
  | reset (t : VT)
  | setInt (x : BitVec 64) | setString (x : Bytes) | setBool (x : Bool) | setDouble (x : F64) | setTime (x : F64) | setFloat (x : F32)
  | setBinary (x : Bytes) | setExtType (t : UInt8)
  | setKey (k : Bytes) (t : VT) | setKeyString (k x : Bytes) | setKeyInt (k : Bytes) (x : BitVec 64) | setKeyFloat (k : Bytes) (x : F32)
  | setKeyDouble (k : Bytes) (x : F64) | setKeyBool (k : Bytes) (x : Bool) | setKeyTime (k : Bytes) (x : F64)
  | setIndex (i : Int) (t : VT) | setIndexString (i : Int) (x : Bytes) | setIndexInt (i : Int) (x : BitVec 64) | setIndexFloat (i : Int) (x : F32)
  | setIndexDouble (i : Int) (x : F64) | setIndexBool (i : Int) (x : Bool) | setIndexTime (i : Int) (x : F64)
  | insertValue (i : Int) (t : VT) | append (t : VT)
  | removeKey (k : Bytes) | extractValue (k : Bytes) | removeIndex (i : Int)
  | valueByName (k : Bytes) | valueByPath (path : List Bytes) | items (i : Int) | string (json : Res Bytes)

/-- Perform it. -/
def Mut.run (E : Env) (h : Heap) (p : Ptr) : Mut → Res Heap
  | .reset t => .ok (Heap.reset h p t)
  | .setInt x => .ok (Heap.setInt h p x)
  | .setString x => .ok (Heap.setString h p x)
  | .setBool x => .ok (Heap.setBool h p x)
  | .setDouble x => .ok (Heap.setDouble h p x)
  | .setTime x => .ok (Heap.setTime h p x)
  | .setFloat x => .ok (Heap.setFloat h p x)
  | .setBinary x => .ok (Heap.setBinary h p x)
  | .setExtType x => .ok (Heap.setExtType h p x)
  | .setKey k t => (Heap.setKey E h p k t).bind (fun r => .ok r.2)
  | .setKeyString k x => Heap.setKeyString E h p k x
  | .setKeyInt k x => Heap.setKeyInt E h p k x
  | .setKeyFloat k x => Heap.setKeyFloat E h p k x
  | .setKeyDouble k x => Heap.setKeyDouble E h p k x
  | .setKeyBool k x => .ok (Heap.setKeyBool E h p k x)
  | .setKeyTime k x => Heap.setKeyTime E h p k x
  | .setIndex i t => .ok (Heap.setIndex h p i t).2
  | .setIndexString i x => .ok (Heap.setIndexString h p i x)
  | .setIndexInt i x => .ok (Heap.setIndexInt h p i x)
  | .setIndexFloat i x => .ok (Heap.setIndexFloat h p i x)
  | .setIndexDouble i x => .ok (Heap.setIndexDouble h p i x)
  | .setIndexBool i x => .ok (Heap.setIndexBool h p i x)
  | .setIndexTime i x => .ok (Heap.setIndexTime h p i x)
  | .insertValue i t => .ok (Heap.insertValue h p i t).2
  | .append t => .ok (Heap.append h p t).2
  | .removeKey k => .ok (Heap.removeKey E h p k)
  | .extractValue k => .ok (Heap.extractValue E h p k).2
  | .removeIndex i => .ok (Heap.removeIndex h p i)
  | .valueByName k => .ok (Heap.valueByName E h p k).2
  | .valueByPath path => .ok (Heap.valueByPath E h p path).2
  | .items i => .ok (Heap.items E h p i).2
  | .string json => .ok (h.set p (getString E json (h.mem p)).2)

section
variable {h : Heap} {p : Ptr} {v : Val} {F : List Ptr}

theorem keyX_any {E : Env} (g : Good h (some p) v F) (h5 : 5 ≤ p) (k : Bytes) (t : VT) (ht : (constOf t).isNone) (f : Heap → Ptr → Heap)
    (hf : ∀ {h q w G}, Good h (some q) w G → w.vt = t → 5 ≤ q → Moves h G q (f h q)) {h' : Heap}
    (e : (do let (q, h) ← Heap.setKey E h p k t; Res.ok (f h q)) = .ok h') : Moves h F p h' := by
  rw [Res.bind_eq_ok] at e
  obtain ⟨⟨q, h1⟩, e1, e⟩ := e
  cases e
  obtain ⟨w, Fq, gq, hw, hq, hu⟩ := (setKey_any g h5 k t e1).child
  obtain ⟨w', Fq', u⟩ := hf gq hw (hq ht)
  exact hu _ w' Fq' u

theorem idxX_any (g : Good h (some p) v F) (h5 : 5 ≤ p) (i : Int) (t : VT) (ht : (constOf t).isNone) (f : Heap → Ptr → Heap)
    (hf : ∀ {h q w G}, Good h (some q) w G → w.vt = t → 5 ≤ q → Moves h G q (f h q)) :
    Moves h F p (f (Heap.setIndex h p i t).2 (Heap.setIndex h p i t).1) := by
  obtain ⟨w, Fq, gq, hw, hq, hu⟩ := (setIndex_any g h5 i t).child
  obtain ⟨w', Fq', u⟩ := hf gq hw (hq ht)
  exact hu _ w' Fq' u

theorem setStr_any {h : Heap} {q : Ptr} {w : Val} {G : List Ptr} (g : Good h (some q) w G) (hw : w.vt = .string) (h5 : 5 ≤ q) (x : Bytes) :
    Moves h G q (h.upd q (fun n => { n with str := x })) :=
  Moves.of (write_leaf (w := .str x) g rfl h5 rfl (by simp [leafOf, (rep_dt g.rep).trans hw]))

theorem setInt_any {h : Heap} {q : Ptr} {w : Val} {G : List Ptr} (g : Good h (some q) w G) (h5 : 5 ≤ q) (x : BitVec 64) : Moves h G q (Heap.setInt h q x) := by
  obtain ⟨e, u, -⟩ := setInt_upd g h5 x; exact Moves.of u

theorem setFloat_any {h : Heap} {q : Ptr} {w : Val} {G : List Ptr} (g : Good h (some q) w G) (h5 : 5 ≤ q) (x : F32) : Moves h G q (Heap.setFloat h q x) := by
  obtain ⟨e, u⟩ := setFloat_upd g h5 x; exact Moves.of u

/-- Every operation leaves a proper tree and touches nothing else. -/
theorem Mut.moves {E : Env} (g : Good h (some p) v F) (h5 : 5 ≤ p) (m : Mut) {h' : Heap} (e : m.run E h p = .ok h') : Moves h F p h' := by
  cases m <;> simp only [Mut.run, Res.ok.injEq] at e
  case reset t => subst e; exact Moves.of (reset_upd g h5 t)
  case setInt x => subst e; exact setInt_any g h5 x
  case setString x => subst e; exact Moves.of (setString_upd g h5 x)
  case setBool x => subst e; exact Moves.of (setBool_upd g h5 x)
  case setDouble x => subst e; exact Moves.of (setDouble_upd g h5 x)
  case setTime x => subst e; exact Moves.of (setTime_upd g h5 x)
  case setFloat x => subst e; exact setFloat_any g h5 x
  case setBinary x => subst e; exact setBinary_any g h5 x
  case setExtType x => subst e; exact setExtType_any g h5 x
  case setKey k t =>
    cases hk : Heap.setKey E h p k t with
    | ok r => rw [hk] at e; cases e; exact (setKey_any g h5 k t hk).moves
    | err _ => rw [hk] at e; cases e
    | panic => rw [hk] at e; cases e
    | loop => rw [hk] at e; cases e
  case setKeyString k x => exact keyX_any g h5 k .string rfl (fun h q => h.upd q (fun n => { n with str := x })) (fun g hw h5 => setStr_any g hw h5 x) e
  case setKeyInt k x => exact keyX_any g h5 k .int rfl (fun h q => Heap.setInt h q x) (fun g _ h5 => setInt_any g h5 x) e
  case setKeyFloat k x => exact keyX_any g h5 k .float rfl (fun h q => Heap.setFloat h q x) (fun g _ h5 => setFloat_any g h5 x) e
  case setKeyDouble k x => exact keyX_any g h5 k .double rfl (fun h q => Heap.setDouble h q x) (fun g _ h5 => Moves.of (setDouble_upd g h5 x)) e
  case setKeyBool k x =>
    subst e
    have hlt : (if x then trueP else falseP) < 5 := by cases x <;> simp [trueP, falseP]
    obtain ⟨w, hw⟩ : ∃ w, Good h (some (if x then trueP else falseP)) w [] := by
      have hd := g.inv.const _ hlt
      refine ⟨if x then .tru else .fls, g.inv, ?_, by simp, by simp⟩
      cases x
      · exact ⟨falseP, rfl, by simp [foot, falseP], by
          have : (view h.mem falseP).dt = .false := by rw [view_dt]; exact hd
          generalize view h.mem falseP = n at this; simp [leafOf, this]⟩
      · exact ⟨trueP, rfl, by simp [foot, trueP], by
          have : (view h.mem trueP).dt = .true := by rw [view_dt]; exact hd
          generalize view h.mem trueP = n at this; simp [leafOf, this]⟩
    obtain ⟨v', F', u⟩ := setKeyValue_any E g h5 k hw (by simp)
    exact Moves.of u
  case setKeyTime k x => exact keyX_any g h5 k .dateTime rfl (fun h q => Heap.setTime h q x) (fun g _ h5 => Moves.of (setTime_upd g h5 x)) e
  case setIndex i t => subst e; exact (setIndex_any g h5 i t).moves
  case setIndexString i x => subst e; exact idxX_any g h5 i .string rfl (fun h q => h.upd q (fun n => { n with str := x })) (fun g hw h5 => setStr_any g hw h5 x)
  case setIndexInt i x => subst e; exact idxX_any g h5 i .int rfl (fun h q => Heap.setInt h q x) (fun g _ h5 => setInt_any g h5 x)
  case setIndexFloat i x => subst e; exact idxX_any g h5 i .float rfl (fun h q => Heap.setFloat h q x) (fun g _ h5 => setFloat_any g h5 x)
  case setIndexDouble i x => subst e; exact idxX_any g h5 i .double rfl (fun h q => Heap.setDouble h q x) (fun g _ h5 => Moves.of (setDouble_upd g h5 x))
  case setIndexBool i x => subst e; exact (setIndex_any g h5 i _).moves
  case setIndexTime i x => subst e; exact idxX_any g h5 i .dateTime rfl (fun h q => Heap.setTime h q x) (fun g _ h5 => Moves.of (setTime_upd g h5 x))
  case insertValue i t => subst e; exact insertValue_any g h5 i t
  case append t => subst e; exact insertValue_any g h5 _ t
  case removeKey k => subst e; exact removeKey_any E g k
  case extractValue k => subst e; exact extractValue_any E g k
  case removeIndex i => subst e; exact removeIndex_any g i
  case valueByName k => subst e; obtain ⟨v1, F1, u, -⟩ := valueByName_any E g k; exact Moves.of u
  case valueByPath path => subst e; exact valueByPath_any E path g
  case items i => subst e; exact items_any E g i
  case string json => subst e; exact string_any E json g h5

theorem Inv.keyX_st {X : CId → Prop} (I : Inv h) (E : Env) (p : Ptr) (k : Bytes) (t : VT) (hX : ∀ d, (h.mem p).owner = some d → X d)
    (f : Heap → Ptr → Heap) (hf : ∀ h q, Inv h → Step X h (f h q)) {h' : Heap}
    (e : (do let (q, h) ← Heap.setKey E h p k t; Res.ok (f h q)) = .ok h') : Step X h h' := by
  rw [Res.bind_eq_ok] at e
  obtain ⟨⟨q, h1⟩, e1, e⟩ := e
  cases e
  have s := I.setKey_st (X := X) E p k t hX e1
  exact s.trans (hf h1 q s.inv)

/-- Of the existing caches only that of the node is used. -/
theorem Mut.step {E : Env} {X : CId → Prop} (I : Inv h) (m : Mut) (hX : ∀ d, (h.mem p).owner = some d → X d) {h' : Heap}
    (e : m.run E h p = .ok h') : Step X h h' := by
  have st : ∀ {h : Heap} q x, Inv h → Step X h (h.upd q (fun n => { n with str := x })) := fun q x I => I.upd_st q _ (by intro n; exact ⟨rfl, rfl⟩)
  have idx : ∀ i t, Step X h (Heap.setIndex h p i t).2 := fun i t => I.setIndex_st p i t hX
  cases m <;> simp only [Mut.run, Res.ok.injEq] at e
  case reset t => subst e; exact I.reset_st p t
  case setInt x => subst e; exact I.setInt_st p x
  case setString x => subst e; exact I.setString_st p x
  case setBool x => subst e; exact I.setBool_st p x
  case setDouble x => subst e; exact I.setDouble_st p x
  case setTime x => subst e; exact I.setTime_st p x
  case setFloat x => subst e; exact I.setFloat_st p x
  case setBinary x => subst e; exact I.setBinary_st p x
  case setExtType x => subst e; exact I.setExtType_st p x
  case setKey k t =>
    cases hk : Heap.setKey E h p k t with
    | ok r => rw [hk] at e; cases e; exact I.setKey_st E p k t hX hk
    | err _ => rw [hk] at e; cases e
    | panic => rw [hk] at e; cases e
    | loop => rw [hk] at e; cases e
  case setKeyString k x => exact I.keyX_st E p k .string hX (fun h q => h.upd q (fun n => { n with str := x })) (fun h q I => st q x I) e
  case setKeyInt k x => exact I.keyX_st E p k .int hX (fun h q => Heap.setInt h q x) (fun h q I => I.setInt_st q x) e
  case setKeyFloat k x => exact I.keyX_st E p k .float hX (fun h q => Heap.setFloat h q x) (fun h q I => I.setFloat_st q x) e
  case setKeyDouble k x => exact I.keyX_st E p k .double hX (fun h q => Heap.setDouble h q x) (fun h q I => I.setDouble_st q x) e
  case setKeyBool k x => subst e; exact I.setKeyValue_st E p k _
  case setKeyTime k x => exact I.keyX_st E p k .dateTime hX (fun h q => Heap.setTime h q x) (fun h q I => I.setTime_st q x) e
  case setIndex i t => subst e; exact idx i t
  case setIndexString i x => subst e; exact (idx i _).trans (st _ x (idx i _).inv)
  case setIndexInt i x => subst e; exact (idx i _).trans ((idx i _).inv.setInt_st _ x)
  case setIndexFloat i x => subst e; exact (idx i _).trans ((idx i _).inv.setFloat_st _ x)
  case setIndexDouble i x => subst e; exact (idx i _).trans ((idx i _).inv.setDouble_st _ x)
  case setIndexBool i x => subst e; exact idx i _
  case setIndexTime i x => subst e; exact (idx i _).trans ((idx i _).inv.setTime_st _ x)
  case insertValue i t => subst e; exact I.insertValue_st p i t
  case append t => subst e; exact I.append_st p t
  case removeKey k => subst e; exact I.removeKey_st E p k
  case extractValue k => subst e; exact I.extractValue_st E p k
  case removeIndex i => subst e; exact I.removeIndex_st p i
  case valueByName k => subst e; exact I.valueByName_st E p k
  case valueByPath path => subst e; exact Inv.valueByPath_st E path I p
  case items i => subst e; exact I.items_st E p i
  case string json => subst e; exact I.getString_st E json p

end

end Dxs.Heap
