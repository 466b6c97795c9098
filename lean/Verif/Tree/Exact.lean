import Verif.Tree.Sem
import Verif.Load.Base

/-!
# Every operation in memory is the operation on the tree
-/

namespace Dxs.Heap

/-- The outcome in memory and the outcomes on the tree. -/
def Exact (h : Heap) (F : List Ptr) (p : Ptr) (t : BitVec 64 → Res Val) : Res Heap → Prop
  | .ok h' => ∃ c v' F', t c = .ok v' ∧ Upd h F h' (some p) v' F'
  | .panic => ∀ c, t c = .panic
  | _ => False

theorem Slot.iff {t : VT} {old : Option Val} {w : Val} : Slot t old w ↔ ∃ c, w = slotOf t c old := by
  unfold Slot slotOf
  cases old with
  | none => rfl
  | some x =>
    dsimp only
    split
    · simp
    · rfl

section
variable {h : Heap} {p : Ptr} {v : Val} {F : List Ptr}

theorem Exact.of {t : BitVec 64 → Res Val} {h' : Heap} {v' : Val} {F' : List Ptr} (c : BitVec 64) (e : t c = .ok v') (u : Upd h F h' (some p) v' F') :
    Exact h F p t (.ok h') := ⟨c, v', F', e, u⟩

theorem toObjX (g : Good h (some p) v F) (h5 : 5 ≤ p) :
    ∃ F0, Upd h F (if (h.mem p).dt = .object then h else reset h p .object) (some p) (.obj (objOf v).1 (objOf v).2) F0 := by
  split
  · rename_i hd
    obtain ⟨ku, kvs, rfl⟩ := vt_obj ((rep_dt g.rep).symm.trans hd) (rep_ne_nil g.rep)
    exact ⟨F, g.upd_refl⟩
  · rename_i hd
    have : objOf v = (false, []) := by
      have := rep_dt g.rep
      cases v <;> simp_all [objOf, Val.vt]
    rw [this]
    exact ⟨_, reset_upd g h5 .object⟩

theorem toArrX (g : Good h (some p) v F) (h5 : 5 ≤ p) :
    ∃ F0, Upd h F (if (h.mem p).dt = .array then h else reset h p .array) (some p) (.arr (arrOf v)) F0 := by
  split
  · rename_i hd
    obtain ⟨xs, rfl⟩ := vt_arr ((rep_dt g.rep).symm.trans hd) (rep_ne_nil g.rep)
    exact ⟨F, g.upd_refl⟩
  · rename_i hd
    have : arrOf v = [] := by
      have := rep_dt g.rep
      cases v <;> simp_all [arrOf, Val.vt]
    rw [this]
    exact ⟨_, reset_upd g h5 .array⟩

/-- What `SetIndex`/`SetKey` return: the value in its place, and what happens to the whole when it is changed. -/
structure HandsX (h : Heap) (F : List Ptr) (p : Ptr) (t : VT) (old : Option Val) (put : Val → Val) (q : Ptr) (h1 : Heap) : Prop where
  child : ∃ c Fq, Good h1 (some q) (slotOf t c old) Fq ∧ ((constOf t).isNone → 5 ≤ q) ∧
    ∀ h2 w' Fq', Upd h1 Fq h2 (some q) w' Fq' → ∃ F', Upd h F h2 (some p) (put w') F'

theorem HandsX.after {h0 : Heap} {F0 : List Ptr} {v0 : Val} {t : VT} {old : Option Val} {put : Val → Val} {q : Ptr} {h1 : Heap} (a : HandsX h0 F0 p t old put q h1)
    (u : Upd h F h0 (some p) v0 F0) : HandsX h F p t old put q h1 := by
  obtain ⟨c, Fq, g, h5, hu⟩ := a.child
  exact ⟨c, Fq, g, h5, fun h2 w' Fq' u2 => by obtain ⟨F', u3⟩ := hu h2 w' Fq' u2; exact ⟨F', UpdX.trans u u3⟩⟩

theorem setIndex_handsX (g : Good h (some p) v F) (h5 : 5 ≤ p) (idx : Int) (t : VT) :
    HandsX h F p t (arrOld (arrOf v) idx) (arrPut (arrOf v) idx) (setIndex h p idx t).1 (setIndex h p idx t).2 := by
  obtain ⟨F0, u⟩ := toArrX g h5
  obtain ⟨hd, ho⟩ := arr_first h h5
  have e : setIndex h p idx t = setIndex (if (h.mem p).dt = .array then h else reset h p .array) p idx t := by
    unfold setIndex setIndexCached
    rw [ho]
    simp only [hd, if_true]
  rw [e]
  generalize (if (h.mem p).dt = .array then h else reset h p .array) = h0 at u
  obtain ⟨w, Fq, hs, gq, hq, hu⟩ := setIndex_then u.good idx t
  obtain ⟨c, rfl⟩ := Slot.iff.1 hs
  exact HandsX.after ⟨c, Fq, gq, hq, hu⟩ u

theorem setKey_handsX {E : Env} (g : Good h (some p) v F) (h5 : 5 ≤ p) (k : Bytes) (t : VT) :
    match setKey E h p k t with
    | .ok (q, h1) => HandsX h F p t (oldName E v k) (putName E v k) q h1 ∧ ¬ (asIndex E k v = false ∧ oldName E v k = some .nil)
    | .panic => asIndex E k v = false ∧ oldName E v k = some .nil
    | _ => False := by
  have hdt := rep_dt g.rep
  by_cases ha : (h.mem p).dt = .array ∧ strIdx E k ≠ -1
  · have e' : setKey E h p k t = .ok (setIndex h p (strIdx E k) t) := by
      unfold setKey setKeyCached; rw [if_pos ha]
    obtain ⟨xs, rfl⟩ := vt_arr (hdt.symm.trans ha.1) (rep_ne_nil g.rep)
    have hb : asIndex E k (.arr xs) = true := by simp [asIndex, ha.2]
    have := setIndex_handsX g h5 (strIdx E k) t
    rw [e']
    have e1 : oldName E (.arr xs) k = arrOld (arrOf (.arr xs)) (strIdx E k) := by simp only [oldName, hb, if_true]
    have e2 : putName E (.arr xs) k = arrPut (arrOf (.arr xs)) (strIdx E k) := by funext w; simp only [putName, hb, if_true]
    dsimp only
    rw [e1, e2]
    exact ⟨this, by simp [hb]⟩
  · obtain ⟨F0, u⟩ := toObjX g h5
    obtain ⟨hd, ho⟩ := obj_first h h5
    have hb : asIndex E k v = false := by
      cases v <;> simp_all [asIndex, Val.vt]
    have e1 : oldName E v k = objOld E (objOf v).1 (objOf v).2 k := by simp only [oldName, hb]; rfl
    have e2 : putName E v k = objPut E (objOf v).1 (objOf v).2 k := by funext w; simp only [putName, hb]; rfl
    have e' : setKey E h p k t = setKey E (if (h.mem p).dt = .object then h else reset h p .object) p k t := by
      by_cases hb : (h.mem p).dt = .object
      · rw [if_pos hb]
      · rw [if_neg hb] at hd ho ⊢
        unfold setKey setKeyCached
        have h3 : ¬ (((reset h p .object).mem p).dt = .array ∧ strIdx E k ≠ -1) := by rw [hd]; simp
        simp only [if_neg ha, if_neg h3, if_neg hb, if_pos hd, ho]
    rw [e', e1, e2]
    generalize (if (h.mem p).dt = .object then h else reset h p .object) = h0 at u
    generalize (objOf v).1 = ku at u ⊢
    generalize (objOf v).2 = kvs at u ⊢
    by_cases hnil : objOld E ku kvs k = some .nil
    · unfold setKey
      rw [setKeyCached_nil E u.good k t _ hnil]
      exact ⟨hb, hnil⟩
    · obtain ⟨q', h1', w, he, hq, hs, Fq, gq, hu⟩ := setKey_then E u.good k t hnil
      rw [he]
      obtain ⟨c, rfl⟩ := Slot.iff.1 hs
      exact ⟨HandsX.after ⟨c, Fq, gq, fun _ => hq, hu⟩ u, fun h => hnil h.2⟩

theorem setKeyValue_exact (E : Env) (g : Good h (some p) v F) (h5 : 5 ≤ p) (k : Bytes) {b : Option Ptr} {w : Val} {G : List Ptr}
    (gw : Good h b w G) (hd : ∀ q ∈ G, q ∉ F) : ∃ F', UpdX G h F (setKeyValue E h p k b) (some p) (putName E v k w) F' := by
  have hdt := rep_dt g.rep
  by_cases ha : (h.mem p).dt = .array ∧ strIdx E k ≠ -1
  · have e' : setKeyValue E h p k b = setIndexValue h p (strIdx E k) b := by unfold setKeyValue; rw [if_pos ha]
    rw [e']
    obtain ⟨xs, rfl⟩ := vt_arr (hdt.symm.trans ha.1) (rep_ne_nil g.rep)
    have hb : asIndex E k (.arr xs) = true := by simp [asIndex, ha.2]
    simp only [putName, hb, if_true, arrOf]
    exact setIndexValue_arr g (strIdx E k) gw hd
  · obtain ⟨F0, u⟩ := toObjX g h5
    obtain ⟨hdo, -⟩ := obj_first h h5
    have hb : asIndex E k v = false := by
      cases v <;> simp_all [asIndex, Val.vt]
    have e2 : putName E v k = objPut E (objOf v).1 (objOf v).2 k := by funext w; simp only [putName, hb]; rfl
    have e' : setKeyValue E h p k b = setKeyValue E (if (h.mem p).dt = .object then h else reset h p .object) p k b := by
      by_cases hb : (h.mem p).dt = .object
      · rw [if_pos hb]
      · rw [if_neg hb] at hdo ⊢
        unfold setKeyValue
        have h3 : ¬ (((reset h p .object).mem p).dt = .array ∧ strIdx E k ≠ -1) := by rw [hdo]; simp
        simp only [if_neg ha, if_neg h3, if_neg hb, if_pos hdo]
    rw [e', e2]
    generalize (if (h.mem p).dt = .object then h else reset h p .object) = h0 at u
    have hd' : ∀ q ∈ G, q ∉ F0 := fun q hq hF => (u.sub q hF).elim (hd q hq) (fun h => h.elim (by simp) (gw.live q hq))
    obtain ⟨F', u2⟩ := setKeyValue_obj E u.good k (gw.frame u.frame hd) hd'
    exact ⟨F', UpdX.trans u u2⟩

theorem setIndexValue_exact (g : Good h (some p) v F) (h5 : 5 ≤ p) (idx : Int) {b : Option Ptr} {w : Val} {G : List Ptr}
    (gw : Good h b w G) (hd : ∀ q ∈ G, q ∉ F) : ∃ F', UpdX G h F (setIndexValue h p idx b) (some p) (arrPut (arrOf v) idx w) F' := by
  obtain ⟨F0, u⟩ := toArrX g h5
  obtain ⟨hdt, -⟩ := arr_first h h5
  have e' : setIndexValue h p idx b = setIndexValue (if (h.mem p).dt = .array then h else reset h p .array) p idx b := by
    unfold setIndexValue
    simp only [hdt, if_true]
  rw [e']
  generalize (if (h.mem p).dt = .array then h else reset h p .array) = h0 at u
  have hd' : ∀ q ∈ G, q ∉ F0 := fun q hq hF => (u.sub q hF).elim (hd q hq) (fun h => h.elim (by simp) (gw.live q hq))
  obtain ⟨F', u2⟩ := setIndexValue_arr u.good idx (gw.frame u.frame hd) hd'
  exact ⟨F', UpdX.trans u u2⟩

/-- A node of its own made by `NewValue` has a zero in it. -/
theorem newValue_zero {h : Heap} (I : Inv h) (t : VT) :
    ∃ G, Grows h (newValue h t).2 ∧ Good (newValue h t).2 (some (newValue h t).1) (blankVal t 0) G ∧ (∀ q ∈ G, Avail h q) := by
  obtain ⟨w, G, gr, gw, ⟨c, rfl⟩, hG⟩ := newValue_good I t
  refine ⟨G, gr, ?_, hG⟩
  cases ht : constOf t with
  | some p =>
    have : blankVal t c = blankVal t 0 := by cases t <;> simp [constOf] at ht <;> rfl
    rw [← this]; exact gw
  | none =>
    have A := newValue_spec I t ht
    obtain ⟨e, -⟩ := rep_det A.good.rep gw.rep
    have hc : ((newValue h t).2.mem (newValue h t).1).cell = 0 := by
      unfold newValue
      rw [ht]
      have hge : 5 ≤ h.next := by
        have := A.ge
        unfold newValue at this
        rw [ht] at this
        exact this
      dsimp only [Heap.new]
      rw [reset_mem hge]
      simp [Node.reset, Node.zero]
    rw [hc] at e
    rw [e]; exact gw

theorem insertValue_exact (g : Good h (some p) v F) (h5 : 5 ≤ p) (idx : Int) (t : VT) :
    ∃ F', Upd h F (insertValue h p idx t).2 (some p) (arrIns (arrOf v) idx (blankVal t 0)) F' := by
  obtain ⟨F0, u⟩ := toArrX g h5
  obtain ⟨hdt, -⟩ := arr_first h h5
  have e' : insertValue h p idx t = insertValue (if (h.mem p).dt = .array then h else reset h p .array) p idx t := by
    unfold insertValue
    simp only [hdt, if_true]
  rw [e']
  generalize (if (h.mem p).dt = .array then h else reset h p .array) = h0 at u
  generalize arrOf v = xs at u ⊢
  suffices ∃ F', Upd h0 F0 (insertValue h0 p idx t).2 (some p) (arrIns xs idx (blankVal t 0)) F' by
    obtain ⟨F', u2⟩ := this
    exact ⟨F', UpdX.trans u u2⟩
  have g := u.good
  clear u e' hdt
  have hdt := rep_dt g.rep
  obtain ⟨G, gr, gw, hG⟩ := newValue_zero g.inv t
  unfold insertValue
  simp only [show (h0.mem p).dt = .array from hdt, if_true]
  rcases hn : newValue h0 t with ⟨q, h1⟩
  rw [hn] at gr gw
  simp only at gr gw
  have g1 := g.grow gr
  have hlen := g1.arr_len
  have hd : ∀ x ∈ G, x ∉ F0 := fun x hx hF => g.live x hF (hG x hx)
  simp only [hlen]
  have ht : (if idx < 0 then (0 : Int) else idx).toNat = idx.toNat := by split <;> omega
  generalize hj : (if idx < 0 then (0 : Int) else idx) = j at ht
  have hj0 : 0 ≤ j := by rw [← hj]; split <;> omega
  by_cases hge : j < (xs.length : Int)
  · rw [if_pos hge]
    simp only [ht]
    have : (h1.upd p fun n => { n with arr := n.arr.take idx.toNat ++ [some q] ++ (h1.mem p).arr.drop idx.toNat }) =
        h1.upd p fun n => { n with arr := n.arr.take idx.toNat ++ [some q] ++ n.arr.drop idx.toNat } := rfl
    rw [this]
    obtain ⟨F', u⟩ := arr_insert g1 gw hd idx.toNat
    exact ⟨F', u.ofGrows gr (fun x hx => Or.inr (hG x hx))⟩
  · rw [if_neg hge]
    have hle : xs.length ≤ idx.toNat := by omega
    obtain ⟨F', u⟩ := arr_snoc g1 gw hd
    have e : arrIns xs idx (blankVal t 0) = .arr (xs ++ [blankVal t 0]) := by
      unfold arrIns; rw [List.take_of_length_le hle, List.drop_of_length_le hle]; simp
    rw [e]
    exact ⟨F', u.ofGrows gr (fun x hx => Or.inr (hG x hx))⟩

/-! ## The single operations -/

theorem setInt_exact (g : Good h (some p) v F) (h5 : 5 ≤ p) (x : BitVec 64) : Upd h F (Heap.setInt h p x) (some p) (intInto x v) [p] := by
  obtain ⟨e, u, h1, h2⟩ := setInt_upd g h5 x
  have : intInto x v = .int e x := by
    cases v <;> simp [intInto, Val.vt] at h1 h2 ⊢ <;> first | exact h2.symm | exact h1 _ _ rfl rfl |>.symm | skip
    all_goals first | (rw [h2]) | (rw [h1])
  rw [this]; exact u

theorem setBinary_exact {E : Env} (g : Good h (some p) v F) (h5 : 5 ≤ p) (b : Bytes) : Exact h F p (fun c => (Mut.setBinary b).onTree E c v) (.ok (setBinary h p b)) := by
  have hr := g.rep
  have hd := rep_dt hr
  unfold setBinary
  cases v with
  | bin e x =>
    obtain ⟨q, hq, -, hl⟩ := hr
    cases hq
    rw [view_ge h5] at hl
    simp only [Val.vt] at hd
    simp only [leafOf, hd, Option.some.injEq, Val.bin.injEq] at hl
    simp only [hd]
    exact Exact.of 0 rfl (write_leaf (w := .bin e b) g rfl h5 rfl (by simp [leafOf, hd, hl.1]))
  | exbin e x =>
    obtain ⟨q, hq, -, hl⟩ := hr
    cases hq
    rw [view_ge h5] at hl
    simp only [Val.vt] at hd
    simp only [leafOf, hd, Option.some.injEq, Val.exbin.injEq] at hl
    simp only [hd, hl.2]
    cases x with
    | nil =>
      have u := reset_upd g h5 .binary
      exact Exact.of 0 rfl (UpdX.trans u (write_leaf (w := .bin 0 b) u.good rfl h5 rfl (by simp [leafOf, reset_mem h5, Node.reset])))
    | cons t x => exact Exact.of 0 rfl (write_leaf (w := .exbin e (t :: b)) g rfl h5 rfl (by simp [leafOf, hd, hl.1]))
  | nil => exact absurd rfl (rep_ne_nil hr)
  | _ => simp only [Val.vt] at hd; simp only [hd]; exact Exact.of 0 rfl g.upd_refl

theorem setExtType_exact {E : Env} (g : Good h (some p) v F) (h5 : 5 ≤ p) (t : UInt8) : Exact h F p (fun c => (Mut.setExtType t).onTree E c v) (.ok (setExtType h p t)) := by
  have hr := g.rep
  have hd := rep_dt hr
  unfold setExtType
  cases v with
  | exbin e x =>
    obtain ⟨q, hq, -, hl⟩ := hr
    cases hq
    rw [view_ge h5] at hl
    simp only [Val.vt] at hd
    simp only [leafOf, hd, Option.some.injEq, Val.exbin.injEq] at hl
    simp only [hd, if_true]
    exact Exact.of 0 rfl (write_leaf (w := .exbin e (t :: x.tail)) g rfl h5 rfl (by simp [leafOf, hd, hl.1, hl.2]))
  | nil => exact absurd rfl (rep_ne_nil hr)
  | _ => simp only [Val.vt] at hd; rw [if_neg (by simp [hd])]; exact Exact.of 0 rfl g.upd_refl

theorem string_exact {E : Env} (json : Res Bytes) (g : Good h (some p) v F) (h5 : 5 ≤ p) :
    Exact h F p (fun c => (Mut.string json).onTree E c v) (.ok (h.set p (getString E json (h.mem p)).2)) := by
  have hr := g.rep
  have hd := rep_dt hr
  cases v with
  | raw s =>
    obtain ⟨q, hq, -, hl⟩ := hr
    cases hq
    rw [view_ge h5] at hl
    simp only [Val.vt] at hd
    simp only [leafOf, hd, Option.some.injEq, Val.raw.injEq] at hl
    have e : (getString E json (h.mem p)).2 = { h.mem p with dt := .string, str := E.unesc (h.mem p).str } := by simp [getString, hd]
    rw [e]
    exact Exact.of 0 rfl (write_leaf (w := .str (E.unesc s)) g rfl h5 rfl (by simp [leafOf, hl]))
  | nil => exact absurd rfl (rep_ne_nil hr)
  | _ =>
    have e : (getString E json (h.mem p)).2 = h.mem p := by
      unfold getString
      simp only [Val.vt] at hd
      simp only [hd]
    rw [e, set_self]; exact Exact.of 0 rfl g.upd_refl

theorem items_exact {E : Env} (g : Good h (some p) v F) (idx : Int) : Exact h F p (fun c => (Mut.items idx).onTree E c v) (.ok (items E h p idx).2) := by
  by_cases ho : (h.mem p).dt = .object
  · obtain ⟨ku, kvs, rfl⟩ := vt_obj ((rep_dt g.rep).symm.trans ho) (rep_ne_nil g.rep)
    have hlen : (h.mem p).kvs.length = kvs.length := by
      have := rep_kids_len g.rep
      rw [kids_obj ho] at this
      simpa [Val.kids] using this
    unfold items
    simp only [ho, hlen]
    by_cases hr : inRange idx kvs.length = true
    · simp only [if_pos hr]
      refine Exact.of (v' := .obj true (unescKeys E ku kvs)) (F' := F) 0 (by simp only [Mut.onTree, if_pos hr]) ?_
      obtain ⟨F0, rfl, h5, hdt, hk, hm, hp0, hn0, hav⟩ := g.obj_inv
      obtain ⟨hkeys, hl⟩ := repM_iff.1 hm
      have hu : ∀ {γ : Type} (zs : List (Bytes × γ)), (unescKeys E ku zs).map Prod.fst = if ku then zs.map Prod.fst else (zs.map Prod.fst).map E.unesc := by
        intro γ zs; unfold unescKeys; split <;> simp
      have hs : ∀ {γ : Type} (zs : List (Bytes × γ)), (unescKeys E ku zs).map Prod.snd = zs.map Prod.snd := by
        intro γ zs; unfold unescKeys; split <;> simp
      refine (obj_write (X := []) g (n := { h.mem p with dt := .object, ku := true, kvs := unescKeys E (h.mem p).ku (h.mem p).kvs }) rfl rfl (F' := F0)
        (kvs' := unescKeys E ku kvs) (repM_iff.2 ⟨?_, ?_⟩) hn0 ?_ (by simp))
      · rw [hk, hu, hu, hkeys]
      · rw [hk, hs, hs]; exact hl
      · intro q hq
        exact Or.inl ⟨by simp [hq], by rintro rfl; exact hp0 hq⟩
    · simp only [if_neg hr]
      exact Exact.of 0 (by simp only [Mut.onTree, if_neg hr]) g.upd_refl
  · have : (items E h p idx).2 = h := by
      unfold items; simp only
      split
      · split <;> rfl
      · contradiction
      · rfl
    rw [this]
    refine Exact.of 0 ?_ g.upd_refl
    have hd := rep_dt g.rep
    rw [hd] at ho
    cases v <;> simp [Val.vt] at ho <;> rfl

/-- A lookup finds the member at its position. -/
theorem valueByName_exact (E : Env) (g : Good h (some p) v F) (k : Bytes) :
    Upd h F (valueByName E h p k).2 (some p) (looked E k v) F ∧
      match (valueByName E h p k).1 with
      | none => namePos E k v = none ∨ ∃ i, namePos E k v = some i ∧ (Val.kids v)[i]? = some .nil
      | some q => ∃ i w Fq, namePos E k v = some i ∧ (Val.kids v)[i]? = some w ∧ w ≠ .nil ∧ Good (valueByName E h p k).2 (some q) w Fq ∧
          ∀ h2 w' Fq', Upd (valueByName E h p k).2 Fq h2 (some q) w' Fq' → ∃ F', Upd h F h2 (some p) (Val.setKid (looked E k v) i w') F' := by
  by_cases ho : (h.mem p).dt = .object
  · obtain ⟨ku, kvs, rfl⟩ := vt_obj ((rep_dt g.rep).symm.trans ho) (rep_ne_nil g.rep)
    obtain ⟨hidx, u1, -⟩ := objIndex_upd E g k
    have e : valueByName E h p k = objGet E h p k := by unfold valueByName; rw [ho]
    rw [e]
    unfold objGet
    simp only [looked, namePos]
    have hlt := @indexByName_lt _ E ku kvs k
    have hsnd := indexByName_snd E ku kvs k
    have hl := indexByName_length E ku kvs k
    rcases hi : indexByName E ku kvs k with ⟨i, ku', kvs'⟩
    rw [hi] at hidx u1 hlt hl hsnd
    simp only at hidx u1 hlt hl hsnd
    rcases hoo : objIndex E h p k with ⟨i', h1⟩
    rw [hoo] at hidx u1
    simp only at hidx u1 ⊢
    subst hidx
    refine ⟨u1, ?_⟩
    cases i' with
    | none => exact Or.inl rfl
    | some i =>
      simp only [Option.bind_some]
      obtain ⟨x, hx⟩ : ∃ x, (kvs'.map Prod.snd)[i]? = some x := ⟨_, List.getElem?_eq_getElem (by have := hlt rfl; simp; omega)⟩
      obtain ⟨b, Fi, hb, gb, -, hup⟩ := u1.good.kid (i := i) (x := x) (by simp only [Val.kids, hx])
      rw [kids_obj (rep_dt u1.good.rep), List.getElem?_map] at hb
      have hget : ((h1.mem p).kvs[i]?).bind Prod.snd = b := by
        cases hkv : (h1.mem p).kvs[i]? with
        | none => rw [hkv] at hb; cases hb
        | some kv => rw [hkv] at hb; simp at hb; simp [hb]
      have hx' : (Val.kids (.obj ku kvs))[i]? = some x := by simp only [Val.kids]; rw [← hsnd]; exact hx
      rw [hget]
      cases b with
      | none =>
        have : x = .nil := by
          have := gb.rep
          cases x <;> simp [Rep, RepLeaf] at this ⊢
        subst this
        exact Or.inr ⟨i, rfl, hx'⟩
      | some q =>
        refine ⟨i, x, Fi, rfl, hx', rep_ne_nil gb.rep, gb, fun h2 w' Fq' u2 => ?_⟩
        obtain ⟨F', u3⟩ := hup [] h2 w' Fq' u2 (by simp)
        exact ⟨F', UpdX.trans u1 u3⟩
  · by_cases ha : (h.mem p).dt = .array
    · obtain ⟨xs, rfl⟩ := vt_arr ((rep_dt g.rep).symm.trans ha) (rep_ne_nil g.rep)
      have e : valueByName E h p k = (if inRange (strIdx E k) (h.mem p).arr.length then ((h.mem p).arr[(strIdx E k).toNat]?).bind id else none, h) := by
        unfold valueByName; rw [ha]; simp only; split <;> rfl
      rw [e, g.arr_len]
      simp only [looked, namePos]
      refine ⟨g.upd_refl, ?_⟩
      by_cases hr : inRange (strIdx E k) xs.length = true
      · simp only [if_pos hr]
        have hr := inRange_iff.1 hr
        obtain ⟨x, hx⟩ : ∃ x, xs[(strIdx E k).toNat]? = some x := ⟨_, List.getElem?_eq_getElem (by omega)⟩
        obtain ⟨b, Fi, hb, gb, -, hup⟩ := g.kid (i := (strIdx E k).toNat) (x := x) hx
        rw [kids_arr ha] at hb
        rw [hb]
        cases b with
        | none =>
          have : x = .nil := by
            have := gb.rep
            cases x <;> simp [Rep, RepLeaf] at this ⊢
          subst this
          exact Or.inr ⟨_, rfl, hx⟩
        | some q => exact ⟨_, x, Fi, rfl, hx, rep_ne_nil gb.rep, gb, fun h2 w' Fq' u2 => hup [] h2 w' Fq' u2 (by simp)⟩
      · rw [if_neg hr, if_neg hr]
        exact Or.inl rfl
    · have e : valueByName E h p k = (none, h) := by
        unfold valueByName; split <;> first | contradiction | rfl
      rw [e]
      have hd := rep_dt g.rep
      rw [hd] at ho ha
      have e1 : looked E k v = v := by cases v <;> simp [Val.vt] at ho ha <;> rfl
      have e2 : namePos E k v = none := by cases v <;> simp [Val.vt] at ho ha <;> rfl
      rw [e1, e2]
      exact ⟨g.upd_refl, Or.inl rfl⟩

theorem valueByPath_exact (E : Env) : ∀ (path : List Bytes) {h : Heap} {p : Ptr} {v : Val} {F : List Ptr}, Good h (some p) v F →
    ∃ F', Upd h F (valueByPath E h p path).2 (some p) (lookedPath E path v) F'
  | [], _, _, _, _, g => ⟨_, g.upd_refl⟩
  | k :: path, h, p, v, F, g => by
    obtain ⟨u, hq⟩ := valueByName_exact E g k
    rw [valueByPath, lookedPath]
    generalize valueByName E h p k = r at u hq
    obtain ⟨_ | q, h1⟩ := r
    · simp only at hq
      rcases hq with hq | ⟨i, hq, hn⟩
      · rw [hq]; exact ⟨_, u⟩
      · simp only [hq, hn]; exact ⟨_, u⟩
    · obtain ⟨i, w, Fq, hi, hw, hn, gq, hup⟩ := hq
      obtain ⟨Fq', u2⟩ := valueByPath_exact E path gq
      obtain ⟨F', u3⟩ := hup _ _ Fq' u2
      refine ⟨F', ?_⟩
      simp only [hi, hw]
      cases w <;> first | exact absurd rfl hn | exact u3

/-! ## All of them -/

theorem keyX_exact {E : Env} (g : Good h (some p) v F) (h5 : 5 ≤ p) (k : Bytes) (t : VT) (ht : (constOf t).isNone) (f : Heap → Ptr → Heap) (m : BitVec 64 → Option Val → Val)
    (hf : ∀ {h q old c G}, Good h (some q) (slotOf t c old) G → 5 ≤ q → ∃ c' G', Upd h G (f h q) (some q) (m c' old) G') :
    Exact h F p (fun c => onName E v k (m c)) (do let (q, h) ← Heap.setKey E h p k t; Res.ok (f h q)) := by
  have := setKey_handsX (E := E) g h5 k t
  generalize Heap.setKey E h p k t = r at this
  match r with
  | .ok (q, h1) =>
    obtain ⟨⟨c, Fq, gq, hq, hu⟩, hn⟩ := this
    obtain ⟨c', G', u⟩ := hf gq (hq ht)
    obtain ⟨F', u'⟩ := hu _ _ _ u
    exact ⟨c', _, F', by simp only [onName, if_neg hn], u'⟩
  | .panic => intro c; simp only [onName, if_pos this]
  | .err _ => exact this.elim
  | .loop => exact this.elim

theorem idxX_exact (g : Good h (some p) v F) (h5 : 5 ≤ p) (i : Int) (t : VT) (ht : (constOf t).isNone) (f : Heap → Ptr → Heap) (m : BitVec 64 → Option Val → Val)
    (hf : ∀ {h q old c G}, Good h (some q) (slotOf t c old) G → 5 ≤ q → ∃ c' G', Upd h G (f h q) (some q) (m c' old) G') :
    Exact h F p (fun c => .ok (onIndex v i (m c))) (.ok (f (Heap.setIndex h p i t).2 (Heap.setIndex h p i t).1)) := by
  obtain ⟨c, Fq, gq, hq, hu⟩ := setIndex_handsX g h5 i t
  obtain ⟨c', G', u⟩ := hf gq (hq ht)
  obtain ⟨F', u'⟩ := hu _ _ _ u
  exact ⟨c', _, F', rfl, u'⟩

theorem slotOf_vt (t : VT) (c : BitVec 64) (old : Option Val) : (slotOf t c old).vt = t ∧ slotOf t c old ≠ .nil := (Slot.iff.2 ⟨c, rfl⟩ : Slot t old (slotOf t c old)).vt

/-- The constants are the trees of their types. -/
theorem bool_good {h : Heap} (I : Inv h) (x : Bool) : Good h (some (if x then trueP else falseP)) (if x then .tru else .fls) [] := by
  have hlt : (if x then trueP else falseP) < 5 := by cases x <;> simp [trueP, falseP]
  have hd := I.const _ hlt
  refine ⟨I, ?_, by simp, by simp⟩
  cases x
  · exact ⟨falseP, rfl, by simp [foot, falseP], by
      have : (view h.mem falseP).dt = .false := by rw [view_dt]; exact hd
      generalize view h.mem falseP = n at this; simp [leafOf, this]⟩
  · exact ⟨trueP, rfl, by simp [foot, trueP], by
      have : (view h.mem trueP).dt = .true := by rw [view_dt]; exact hd
      generalize view h.mem trueP = n at this; simp [leafOf, this]⟩

theorem intInto_slot (x c : BitVec 64) (old : Option Val) : intInto x (slotOf .int c old) = intInto x (slotOf .int 0 old) := by
  unfold slotOf
  cases old with
  | none => rfl
  | some y => dsimp only; split <;> rfl

/-- Every operation. -/
theorem Mut.exact {E : Env} (g : Good h (some p) v F) (h5 : 5 ≤ p) (m : Mut) : Exact h F p (fun c => m.onTree E c v) (m.run E h p) := by
  have hstr : ∀ x : Bytes, ∀ {h : Heap} {q old c G}, Good h (some q) (slotOf .string c old) G → 5 ≤ q →
      ∃ (c' : BitVec 64), ∃ G', Upd h G (h.upd q (fun n => { n with str := x })) (some q) ((fun (_ : BitVec 64) (_ : Option Val) => Val.str x) c' old) G' := by
    intro x h q old c G g h5
    refine ⟨0, [q], write_leaf (w := .str x) g rfl h5 rfl ?_⟩
    simp [leafOf, (rep_dt g.rep).trans (slotOf_vt _ _ _).1]
  have hint : ∀ x : BitVec 64, ∀ {h : Heap} {q old c G}, Good h (some q) (slotOf .int c old) G → 5 ≤ q →
      ∃ (c' : BitVec 64), ∃ G', Upd h G (Heap.setInt h q x) (some q) ((fun (_ : BitVec 64) (old : Option Val) => intInto x (slotOf .int 0 old)) c' old) G' := by
    intro x h q old c G g h5
    refine ⟨0, [q], ?_⟩
    show Upd h G _ _ (intInto x (slotOf .int 0 old)) _
    rw [← intInto_slot x c old]
    exact setInt_exact g h5 x
  have hflt : ∀ x : F32, ∀ {h : Heap} {q old c G}, Good h (some q) (slotOf .float c old) G → 5 ≤ q →
      ∃ (c' : BitVec 64), ∃ G', Upd h G (Heap.setFloat h q x) (some q) ((fun (c : BitVec 64) (_ : Option Val) => Val.float (setLo32 c x)) c' old) G' := by
    intro x h q old c G g h5
    obtain ⟨c', u⟩ := setFloat_upd g h5 x
    exact ⟨c', [q], u⟩
  have hdbl : ∀ x : F64, ∀ {h : Heap} {q old c G}, Good h (some q) (slotOf .double c old) G → 5 ≤ q →
      ∃ (c' : BitVec 64), ∃ G', Upd h G (Heap.setDouble h q x) (some q) ((fun (_ : BitVec 64) (_ : Option Val) => Val.double x) c' old) G' := by
    intro x h q old c G g h5
    have u := setDouble_upd g h5 x
    rw [if_neg (by rw [(slotOf_vt _ _ _).1]; simp)] at u
    exact ⟨0, [q], u⟩
  have htim : ∀ x : F64, ∀ {h : Heap} {q old c G}, Good h (some q) (slotOf .dateTime c old) G → 5 ≤ q →
      ∃ (c' : BitVec 64), ∃ G', Upd h G (Heap.setTime h q x) (some q) ((fun (_ : BitVec 64) (_ : Option Val) => Val.dateTime x) c' old) G' := by
    intro x h q old c G g h5
    have u := setTime_upd g h5 x
    rw [if_neg (by rw [(slotOf_vt _ _ _).1]; simp)] at u
    exact ⟨0, [q], u⟩
  cases m <;> simp only [Mut.run]
  case reset t => exact Exact.of (h.mem p).cell rfl (reset_upd g h5 t)
  case setInt x => exact Exact.of 0 rfl (setInt_exact g h5 x)
  case setString x => exact Exact.of 0 rfl (setString_upd g h5 x)
  case setBool x => exact Exact.of 0 rfl (setBool_upd g h5 x)
  case setDouble x => exact Exact.of 0 rfl (setDouble_upd g h5 x)
  case setTime x => exact Exact.of 0 rfl (setTime_upd g h5 x)
  case setFloat x => obtain ⟨c, u⟩ := setFloat_upd g h5 x; exact Exact.of c rfl u
  case setBinary x => exact setBinary_exact g h5 x
  case setExtType x => exact setExtType_exact g h5 x
  case setKey k t =>
    have := setKey_handsX (E := E) g h5 k t
    generalize Heap.setKey E h p k t = r at this
    match r with
    | .ok (q, h1) =>
      obtain ⟨⟨c, Fq, gq, hq, hu⟩, hn⟩ := this
      obtain ⟨F', u'⟩ := hu _ _ _ gq.upd_refl
      exact ⟨c, _, F', by simp only [Mut.onTree, onName, if_neg hn], u'⟩
    | .panic => intro c; simp only [Mut.onTree, onName, if_pos this]
    | .err _ => exact this.elim
    | .loop => exact this.elim
  case setKeyString k x => exact keyX_exact g h5 k .string rfl (fun h q => h.upd q (fun n => { n with str := x })) _ (hstr x)
  case setKeyInt k x => exact keyX_exact g h5 k .int rfl (fun h q => Heap.setInt h q x) _ (hint x)
  case setKeyFloat k x => exact keyX_exact g h5 k .float rfl (fun h q => Heap.setFloat h q x) _ (hflt x)
  case setKeyDouble k x => exact keyX_exact g h5 k .double rfl (fun h q => Heap.setDouble h q x) _ (hdbl x)
  case setKeyBool k x =>
    obtain ⟨F', u⟩ := setKeyValue_exact E g h5 k (bool_good g.inv x) (by simp)
    exact Exact.of 0 rfl u
  case setKeyTime k x => exact keyX_exact g h5 k .dateTime rfl (fun h q => Heap.setTime h q x) _ (htim x)
  case setIndex i t =>
    obtain ⟨c, Fq, gq, hq, hu⟩ := setIndex_handsX g h5 i t
    obtain ⟨F', u'⟩ := hu _ _ _ gq.upd_refl
    exact ⟨c, _, F', rfl, u'⟩
  case setIndexString i x => exact idxX_exact g h5 i .string rfl (fun h q => h.upd q (fun n => { n with str := x })) _ (hstr x)
  case setIndexInt i x => exact idxX_exact g h5 i .int rfl (fun h q => Heap.setInt h q x) _ (hint x)
  case setIndexFloat i x => exact idxX_exact g h5 i .float rfl (fun h q => Heap.setFloat h q x) _ (hflt x)
  case setIndexDouble i x => exact idxX_exact g h5 i .double rfl (fun h q => Heap.setDouble h q x) _ (hdbl x)
  case setIndexBool i x =>
    obtain ⟨c, Fq, gq, hq, hu⟩ := setIndex_handsX g h5 i (if x then .true else .false)
    obtain ⟨F', u'⟩ := hu _ _ _ gq.upd_refl
    refine ⟨c, _, F', rfl, ?_⟩
    have e : slotOf (if x then .true else .false) c (arrOld (arrOf v) i) = if x then .tru else .fls := by
      obtain ⟨h1, h2⟩ := slotOf_vt (if x then .true else .false) c (arrOld (arrOf v) i)
      generalize slotOf (if x then .true else .false) c (arrOld (arrOf v) i) = y at h1 h2
      cases x <;> cases y <;> simp [Val.vt] at h1 h2 ⊢
    simp only [onIndex, ← e]
    exact u'
  case setIndexTime i x => exact idxX_exact g h5 i .dateTime rfl (fun h q => Heap.setTime h q x) _ (htim x)
  case insertValue i t => obtain ⟨F', u⟩ := insertValue_exact g h5 i t; exact Exact.of 0 rfl u
  case append t => obtain ⟨F', u⟩ := insertValue_exact g h5 2147483647 t; exact Exact.of 0 rfl u
  case removeKey k =>
    by_cases ho : (h.mem p).dt = .object
    · obtain ⟨ku, kvs, rfl⟩ := vt_obj ((rep_dt g.rep).symm.trans ho) (rep_ne_nil g.rep)
      obtain ⟨F', u⟩ := removeKey_obj E g k
      exact Exact.of 0 rfl u
    · unfold Heap.removeKey; rw [if_neg ho]
      rw [rep_dt g.rep] at ho
      refine Exact.of 0 ?_ g.upd_refl
      cases v <;> simp [Val.vt] at ho <;> rfl
  case extractValue k =>
    by_cases ho : (h.mem p).dt = .object
    · obtain ⟨ku, kvs, rfl⟩ := vt_obj ((rep_dt g.rep).symm.trans ho) (rep_ne_nil g.rep)
      obtain ⟨F', G, u, -⟩ := extractValue_obj E g k
      exact Exact.of 0 rfl u
    · unfold Heap.extractValue; rw [if_neg ho]
      rw [rep_dt g.rep] at ho
      refine Exact.of 0 ?_ g.upd_refl
      cases v <;> simp [Val.vt] at ho <;> rfl
  case removeIndex i =>
    by_cases ho : (h.mem p).dt = .array
    · obtain ⟨xs, rfl⟩ := vt_arr ((rep_dt g.rep).symm.trans ho) (rep_ne_nil g.rep)
      obtain ⟨F', u⟩ := removeIndex_arr g i
      exact Exact.of 0 rfl u
    · unfold Heap.removeIndex; rw [if_neg (fun h => ho h.1)]
      rw [rep_dt g.rep] at ho
      refine Exact.of 0 ?_ g.upd_refl
      cases v <;> simp [Val.vt] at ho <;> rfl
  case valueByName k => exact Exact.of 0 rfl (valueByName_exact E g k).1
  case valueByPath path => obtain ⟨F', u⟩ := valueByPath_exact E path g; exact Exact.of 0 rfl u
  case items i => exact items_exact g i
  case string json => exact string_exact json g h5

end

end Dxs.Heap
