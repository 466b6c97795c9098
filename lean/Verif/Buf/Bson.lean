import Verif.Buf.Json

/-! The BSON parser with references makes the tree of the BSON parser on trees. -/

namespace Dxs.Buf

open MsgPack (sliceFrom)

variable {E : Env} {m : Mem} {I : Input} {share : Bool}

/-- The results agree: the same length, the same tree, references as they should be. -/
def NR (m : Mem) (share : Bool) (I : Input) (x : Nat × LVal) (y : Nat × Val) : Prop := x.1 = y.1 ∧ x.2.read m = y.2 ∧ x.2.All (Fits share I)

/-- A window at the beginning of `b`. -/
theorem window (hm : Holds m I) (share : Bool) {b : Bytes} (hb : b <:+ I.bytes) (n : Nat) :
    RR (fun _ d => (mk share I b n).read m = d ∧ Fits share I (mk share I b n)) (Bson.sliceTo I.hid n b) (Bson.sliceTo I.hid n b) := by
  refine RR.same ?_
  intro d hd
  unfold Bson.sliceTo at hd
  split at hd
  · rename_i hn
    cases hd
    rw [List.length_append] at hn
    exact ⟨mk_read hm share hb n, mk_fits share hb hn⟩
  · cases hd

theorem sliceFrom_ok {b : Bytes} (hb : b <:+ I.bytes) (k : Nat) : RR (fun x y => x = y ∧ x <:+ I.bytes) (sliceFrom k b) (sliceFrom k b) := by
  refine RR.same ?_
  intro a ha
  unfold sliceFrom at ha
  split at ha
  · cases ha; exact ⟨rfl, (List.drop_suffix _ _).trans hb⟩
  · cases ha

theorem bsBinary_ok (hm : Holds m I) {b : Bytes} (hb : b <:+ I.bytes) : RR (NR m share I) (bsBinary share I b) (Bson.parseBinary I.hid b) := by
  unfold bsBinary Bson.parseBinary
  refine RR.bind RR.rfl' ?_
  rintro n _ rfl
  refine RR.bind (sliceFrom_ok hb 4) ?_
  rintro b _ ⟨rfl, hb⟩
  refine RR.bind RR.rfl' ?_
  rintro sub _ rfl
  split
  · refine RR.bind (sliceFrom_ok hb 5) ?_
    rintro b _ ⟨rfl, hb⟩
    refine RR.bind RR.rfl' ?_
    rintro n _ rfl
    refine RR.bind (sliceFrom_ok hb 9) ?_
    rintro b _ ⟨rfl, hb⟩
    split
    · rfl
    · refine RR.bind (window hm share hb n) ?_
      rintro _ d ⟨rfl, hf⟩
      exact ⟨rfl, rfl, hf⟩
  · refine RR.bind (window hm share hb (n + 1)) ?_
    rintro _ d ⟨rfl, hf⟩
    exact ⟨rfl, rfl, hf⟩

theorem simple_noBytes (hid : Bytes) {ty : UInt8} (h2 : (ty == 0x02) = false) (h5 : (ty == 0x05) = false) (h7 : (ty == 0x07) = false) (h13 : (ty == 0x13) = false) (b : Bytes) :
    OkP (fun x : Nat × Val => NoBytes x.2) (Bson.parseSimple E hid ty b) := by
  unfold Bson.parseSimple
  simp only [h2, h5, h7, h13, Bool.false_eq_true, if_false]
  repeat' first
    | exact OkP.ok trivial
    | (refine OkP.ok ?_; dsimp only; split <;> trivial)
    | refine OkP.ite ?_ ?_
    | refine OkP.bind fun _ => ?_

theorem bsSimple_ok (hm : Holds m I) (ty : UInt8) {b : Bytes} (hb : b <:+ I.bytes) : RR (NR m share I) (bsSimple E share I ty b) (Bson.parseSimple E I.hid ty b) := by
  unfold bsSimple
  by_cases h2 : ty == 0x02
  · have e : ty = 0x02 := by simpa using h2
    subst e
    simp only [Bson.parseSimple, beq_self_eq_true, if_true, show ((0x02 : UInt8) == 0x01) = false from rfl, Bool.false_eq_true, if_false]
    refine RR.bind RR.rfl' ?_
    rintro n _ rfl
    split
    · trivial
    rename_i hn
    refine RR.bind (P := fun _ d => (mkAt share I b 4 (n - 1)).read m = d ∧ Fits share I (mkAt share I b 4 (n - 1))) (RR.same ?_) ?_
    · intro d hd
      unfold Bson.slice at hd
      split at hd
      · rename_i h
        cases hd
        rw [List.length_append] at h
        obtain ⟨a, ha⟩ := hb
        unfold mkAt
        rw [List.drop_take, show 4 + n - 1 - 4 = n - 1 by omega]
        cases share
        · exact ⟨rfl, trivial⟩
        · have hl : I.bytes.length = a.length + b.length := by rw [← ha, List.length_append]
          simp only [if_true, Fits, true_and, Ref.read, Slice.read, show m I.id = _ from hm]
          refine ⟨?_, by omega, by omega⟩
          rw [show I.bytes.length - b.length + 4 = a.length + 4 by omega, ← ha, List.append_assoc, List.drop_append, List.drop_eq_nil_of_le (by omega)]
          simp
      · cases hd
    · rintro _ d ⟨rfl, hf⟩
      exact ⟨rfl, rfl, hf⟩
  rw [if_neg h2]
  by_cases h5 : ty == 0x05
  · have e : ty = 0x05 := by simpa using h5
    subst e
    exact bsBinary_ok hm hb
  rw [if_neg h5]
  by_cases h7 : ty == 0x07
  · have e : ty = 0x07 := by simpa using h7
    subst e
    refine RR.bind (window hm share hb 12) ?_
    rintro _ d ⟨rfl, hf⟩
    exact ⟨rfl, rfl, hf⟩
  rw [if_neg h7]
  by_cases h13 : ty == 0x13
  · have e : ty = 0x13 := by simpa using h13
    subst e
    refine RR.bind (window hm share hb 16) ?_
    rintro _ d ⟨rfl, hf⟩
    exact ⟨rfl, rfl, hf⟩
  rw [if_neg h13]
  have := simple_noBytes (E := E) I.hid (by simpa using h2) (by simpa using h5) (by simpa using h7) (by simpa using h13) b
  cases hs : Bson.parseSimple E I.hid ty b with
  | ok x => exact ⟨rfl, rfl, this x hs⟩
  | err e => rfl
  | panic => trivial
  | loop => trivial

theorem blank_read (tp : VT) : (blankL tp).read m = Bson.blank tp := by
  cases tp <;> simp [blankL, Bson.blank, LVal.read, readL, readM]

theorem blank_all {P : Ref → Prop} (tp : VT) : (blankL tp).All P := by
  cases tp <;> simp [blankL, LVal.All, AllL, AllM, NoBytes]

theorem settle_read {tp : VT} (h : tp = .array ∨ tp = .object ∨ tp = .null) (x : LVal) : (settleL tp x).read m = Bson.settle tp (x.read m) := by
  cases x <;> rcases h with rfl | rfl | rfl <;> simp [settleL, Bson.settle, LVal.read, blank_read, Val.vt]
  all_goals split <;> simp [LVal.read, blank_read]

theorem settle_all {P : Ref → Prop} {tp : VT} {x : LVal} (h : x.All P) : (settleL tp x).All P := by
  cases x <;> simp only [settleL] <;> first | exact blank_all tp | (split <;> first | exact h | exact blank_all tp)

theorem target_cases (ty : UInt8) : Bson.targetType ty = .array ∨ Bson.targetType ty = .object ∨ Bson.targetType ty = .null := by
  unfold Bson.targetType
  split
  · exact .inl rfl
  split
  · exact .inr (.inl rfl)
  · exact .inr (.inr rfl)

theorem allM_get {P : Ref → Prop} {kvs : List (Ref × LVal)} (h : AllM P kvs) (i : Nat) : ((kvs[i]?.map Prod.snd).getD (.lit .nil)).All P := by
  cases hk : kvs[i]? with
  | none => simp [LVal.All, NoBytes]
  | some kv => exact (allM_iff.1 h kv (List.mem_of_getElem? hk)).2

theorem allL_get {P : Ref → Prop} {xs : List LVal} (h : AllL P xs) (i : Nat) : ((xs[i]?).getD (.lit .nil)).All P := by
  cases hk : xs[i]? with
  | none => simp [LVal.All, NoBytes]
  | some kv => exact allL_iff.1 h kv (List.mem_of_getElem? hk)

theorem readM_get (kvs : List (Ref × LVal)) (i : Nat) : (((readM m kvs)[i]?).map Prod.snd).getD .nil = ((kvs[i]?.map Prod.snd).getD (.lit .nil)).read m := by
  rw [readM_eq, List.getElem?_map]
  cases kvs[i]? <;> simp [LVal.read]

theorem readL_get (xs : List LVal) (i : Nat) : ((readL m xs)[i]?).getD .nil = ((xs[i]?).getD (.lit .nil)).read m := by
  rw [readL_eq, List.getElem?_map]
  cases xs[i]? <;> simp [LVal.read]

theorem allL_set {P : Ref → Prop} {xs : List LVal} (h : AllL P xs) {v : LVal} (hv : v.All P) (i : Nat) : AllL P (xs.set i v) := by
  rw [allL_iff] at h ⊢
  intro x hx
  rcases List.mem_or_eq_of_mem_set hx with hx | rfl
  · exact h x hx
  · exact hv

theorem readL_set (xs : List LVal) (i : Nat) (v : LVal) : readL m (xs.set i v) = (readL m xs).set i (v.read m) := by
  rw [readL_eq, readL_eq, List.map_set]

theorem idx_le {b : Bytes} {k : Nat} (h : b.idxOf? 0 = some k) : k < b.length := by
  rw [List.idxOf?] at h
  rw [List.findIdx?_eq_some_iff_getElem] at h
  exact h.1

theorem bs_ok (hm : Holds m I) : ∀ fuel : Nat,
    (∀ b ku kvs, b <:+ I.bytes → AllM (Fits share I) kvs → RR (NR m share I) (bsDoc E m share I fuel b ku kvs) (Bson.parseDoc E I.hid fuel b ku (readM m kvs))) ∧
    (∀ b n pi ku kvs, b <:+ I.bytes → AllM (Fits share I) kvs →
      RR (fun x y => x.read m = y ∧ x.All (Fits share I)) (bsDocLoop E m share I fuel b n pi ku kvs) (Bson.docLoop E I.hid fuel b n pi ku (readM m kvs))) ∧
    (∀ ty b cur, b <:+ I.bytes → cur.All (Fits share I) → RR (NR m share I) (bsElem E m share I fuel ty b cur) (Bson.parseElem E I.hid fuel ty b (cur.read m))) ∧
    (∀ b xs, b <:+ I.bytes → AllL (Fits share I) xs → RR (NR m share I) (bsArr E m share I fuel b xs) (Bson.parseArr E I.hid fuel b (readL m xs))) ∧
    (∀ b n pi xs, b <:+ I.bytes → AllL (Fits share I) xs →
      RR (fun x y => x.read m = y ∧ x.All (Fits share I)) (bsArrLoop E m share I fuel b n pi xs) (Bson.arrLoop E I.hid fuel b n pi (readL m xs))) := by
  intro fuel
  induction fuel with
  | zero =>
    refine ⟨?_, ?_, ?_, ?_, ?_⟩ <;> intros <;>
      simp only [bsDoc, bsDocLoop, bsElem, bsArr, bsArrLoop, Bson.parseDoc, Bson.docLoop, Bson.parseElem, Bson.parseArr, Bson.arrLoop] <;> trivial
  | succ fuel ih =>
    obtain ⟨ihD, ihDL, ihE, ihA, ihAL⟩ := ih
    refine ⟨?_, ?_, ?_, ?_, ?_⟩
    · intro b ku kvs hb hk
      rw [bsDoc, Bson.parseDoc]
      split
      · rfl
      refine RR.bind RR.rfl' ?_
      rintro n _ rfl
      split
      · rfl
      refine RR.bind (ihDL b n 4 ku kvs hb hk) ?_
      rintro o _ ⟨rfl, ha⟩
      exact ⟨rfl, rfl, ha⟩
    · intro b n pi ku kvs hb hk
      rw [bsDocLoop, Bson.docLoop]
      split
      · refine RR.bind RR.rfl' ?_
        rintro ty _ rfl
        dsimp only
        cases hi : (b.drop (pi + 1)).idxOf? 0 with
        | none => rfl
        | some k =>
          dsimp only
          have hb1 : b.drop (pi + 1) <:+ I.bytes := (List.drop_suffix _ _).trans hb
          have hb2 : b.drop (pi + 1 + k + 1) <:+ I.bytes := (List.drop_suffix _ _).trans hb
          have hkl := idx_le hi
          have hkey : (mk share I (b.drop (pi + 1)) k).read m = (b.drop (pi + 1)).take k := by
            rw [mk_read hm share hb1, List.take_append_of_le_length (by omega)]
          have hfit : Fits share I (mk share I (b.drop (pi + 1)) k) := mk_fits share hb1 (by omega)
          rw [← hkey, index_read]
          have hall := index_all E m ku (P := Fits share I) (fun _ => trivial) hk ((mk share I (b.drop (pi + 1)) k).read m)
          generalize indexByNameL E m ku kvs ((mk share I (b.drop (pi + 1)) k).read m) = q at hall ⊢
          obtain ⟨j, ku', kvs'⟩ := q
          cases j with
          | some j =>
            dsimp only at hall ⊢
            rw [readM_get, ← settle_read (target_cases ty)]
            refine RR.bind (ihE ty _ _ hb2 (settle_all (allM_get hall j))) ?_
            rintro ⟨l, v⟩ ⟨_, _⟩ ⟨rfl, rfl, hv⟩
            dsimp only at hv ⊢
            rw [← readM_modify]
            split
            · exact ⟨by simp [LVal.read], by simpa [LVal.All] using allM_modify hall hv j⟩
            · exact ihDL _ _ _ _ _ hb (allM_modify hall hv j)
          | none =>
            dsimp only at hall ⊢
            rw [← blank_read (m := m)]
            refine RR.bind (ihE ty _ _ hb2 (blank_all _)) ?_
            rintro ⟨l, v⟩ ⟨_, _⟩ ⟨rfl, rfl, hv⟩
            dsimp only at hv ⊢
            rw [← readM_snoc]
            split
            · exact ⟨by simp [LVal.read], by simpa [LVal.All] using allM_snoc hall hfit hv⟩
            · exact ihDL _ _ _ _ _ hb (allM_snoc hall hfit hv)
      · exact ⟨by simp [LVal.read], by simpa [LVal.All] using hk⟩
    · intro ty b cur hb hc
      by_cases h4 : ty == 0x04
      · cases cur with
        | arr xs => simp only [bsElem, Bson.parseElem, h4, if_true, LVal.read]; exact ihA b xs hb (by simpa [LVal.All] using hc)
        | lit v => simp only [LVal.All] at hc; cases v <;> first | exact hc.elim | (simp only [bsElem, Bson.parseElem, h4, if_true, LVal.read]; trivial)
        | _ => simp only [bsElem, Bson.parseElem, h4, if_true, LVal.read]; trivial
      by_cases h3 : ty == 0x03
      · cases cur with
        | obj ku kvs => simp only [bsElem, Bson.parseElem, h4, h3, if_true, LVal.read]; exact ihD b ku kvs hb (by simpa [LVal.All] using hc)
        | lit v => simp only [LVal.All] at hc; cases v <;> first | exact hc.elim | (simp only [bsElem, Bson.parseElem, h4, h3, if_true, LVal.read]; trivial)
        | _ => simp only [bsElem, Bson.parseElem, h4, h3, if_true, LVal.read]; trivial
      · simp only [bsElem, Bson.parseElem, h4, h3, if_false]
        exact bsSimple_ok hm ty hb
    · intro b xs hb hk
      rw [bsArr, Bson.parseArr]
      refine RR.bind RR.rfl' ?_
      rintro n _ rfl
      split
      · rfl
      refine RR.bind (ihAL b n 4 xs hb hk) ?_
      rintro o _ ⟨rfl, ha⟩
      exact ⟨rfl, rfl, ha⟩
    · intro b n pi xs hb hk
      rw [bsArrLoop, Bson.arrLoop]
      split
      · refine RR.bind RR.rfl' ?_
        rintro ty _ rfl
        dsimp only
        cases hi : (b.drop (pi + 1)).idxOf? 0 with
        | none => rfl
        | some k =>
          dsimp only
          have hb2 : b.drop (pi + 1 + k + 1) <:+ I.bytes := (List.drop_suffix _ _).trans hb
          have hlen : (readL m xs).length = xs.length := by rw [readL_eq, List.length_map]
          split
          · rfl
          rw [hlen]
          split
          · rw [readL_get, ← settle_read (target_cases ty)]
            refine RR.bind (ihE ty _ _ hb2 (settle_all (allL_get hk _))) ?_
            rintro ⟨l, v⟩ ⟨_, _⟩ ⟨rfl, rfl, hv⟩
            dsimp only at hv ⊢
            rw [← readL_set]
            split
            · exact ⟨by simp [LVal.read], by simpa [LVal.All] using allL_set hk hv _⟩
            · exact ihAL _ _ _ _ hb (allL_set hk hv _)
          · rw [← blank_read (m := m)]
            refine RR.bind (ihE ty _ _ hb2 (blank_all _)) ?_
            rintro ⟨l, v⟩ ⟨_, _⟩ ⟨rfl, rfl, hv⟩
            dsimp only at hv ⊢
            rw [← readL_snoc]
            split
            · exact ⟨by simp [LVal.read], by simpa [LVal.All] using allL_snoc hk hv⟩
            · exact ihAL _ _ _ _ hb (allL_snoc hk hv)
      · exact ⟨by simp [LVal.read], by simpa [LVal.All] using hk⟩

end Dxs.Buf
