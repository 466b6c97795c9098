import Verif.Buf.Model
import Verif.MsgPack.Robust

/-! The MessagePack parser with references makes the tree of the MessagePack parser on trees. -/

namespace Dxs.Buf

open MsgPack (readCode parseLen parseExtLen parseMapLen parseArrLen mapErr sliceFrom parseTime isStr isArray isMap isBin isExt isFixedNum isTime sx8 sx16 sx32
  parseUint8 parseUint16 parseUint32 parseUint64)

/-- Two outcomes of the same kind, with related results. -/
def RR {α β : Type} (P : α → β → Prop) : Res α → Res β → Prop
  | .ok a, .ok b => P a b
  | .err e, .err e' => e = e'
  | .panic, .panic => True
  | .loop, .loop => True
  | _, _ => False

theorem RR.bind {α β γ δ : Type} {P : α → β → Prop} {Q : γ → δ → Prop} {x : Res α} {y : Res β} {f : α → Res γ} {g : β → Res δ}
    (h : RR P x y) (hf : ∀ a b, P a b → RR Q (f a) (g b)) : RR Q (x >>= f) (y >>= g) := by
  cases x <;> cases y <;> simp only [RR] at h <;> first | exact h.elim | skip
  · exact hf _ _ h
  · exact h
  · trivial
  · trivial

theorem RR.mono {α β : Type} {P Q : α → β → Prop} {x : Res α} {y : Res β} (h : RR P x y) (hf : ∀ a b, P a b → Q a b) : RR Q x y := by
  cases x <;> cases y <;> simp only [RR] at h ⊢ <;> first | exact h.elim | exact hf _ _ h | exact h

theorem RR.same {α : Type} {P : α → α → Prop} {x : Res α} (h : ∀ a, x = .ok a → P a a) : RR P x x := by
  cases x <;> simp only [RR]
  exact h _ rfl

/-- A reference made by a parser: its own bytes, or, if it shares, a window into the input up to its capacity. -/
def Fits (share : Bool) (I : Input) : Ref → Prop
  | .own _ => True
  | .sl s => share = true ∧ s.arr = I.id ∧ s.len ≤ s.cap ∧ s.off + s.cap = I.bytes.length + I.hid.length

/-- The input is in the memory. -/
def Holds (m : Mem) (I : Input) : Prop := m I.id = I.bytes ++ I.hid

theorem mk_read {m : Mem} {I : Input} (hm : Holds m I) (share : Bool) {t : Bytes} (ht : t <:+ I.bytes) (n : Nat) : (mk share I t n).read m = (t ++ I.hid).take n := by
  unfold mk
  cases share
  · rfl
  · obtain ⟨a, ha⟩ := ht
    show ((m I.id).drop _).take n = _
    rw [show m I.id = _ from hm, ← ha]
    simp

theorem mk_fits (share : Bool) {I : Input} {t : Bytes} (ht : t <:+ I.bytes) {n : Nat} (hn : n ≤ t.length + I.hid.length) : Fits share I (mk share I t n) := by
  unfold mk
  have := ht.length_le
  cases share
  · trivial
  · simp only [if_true, Fits, true_and]
    omega

/-! ## Members -/

theorem readM_eq (m : Mem) : ∀ kvs, readM m kvs = kvs.map (fun kv => (kv.1.read m, kv.2.read m))
  | [] => by simp [readM]
  | (k, x) :: xs => by simp [readM, readM_eq m xs]

theorem readL_eq (m : Mem) : ∀ xs, readL m xs = xs.map (·.read m)
  | [] => by simp [readL]
  | x :: xs => by simp [readL, readL_eq m xs]

theorem allM_iff {P : Ref → Prop} : ∀ {kvs}, AllM P kvs ↔ ∀ kv ∈ kvs, P kv.1 ∧ kv.2.All P
  | [] => by simp [AllM]
  | (k, x) :: xs => by simp [AllM, allM_iff (kvs := xs), and_assoc]

theorem allL_iff {P : Ref → Prop} : ∀ {xs}, AllL P xs ↔ ∀ x ∈ xs, x.All P
  | [] => by simp [AllL]
  | x :: xs => by simp [AllL, allL_iff (xs := xs)]

theorem unesc_read (E : Env) (m : Mem) (ku : Bool) (kvs : List (Ref × LVal)) : readM m (unescKeysL E m ku kvs) = unescKeys E ku (readM m kvs) := by
  cases ku <;> simp [unescKeysL, unescKeys, readM_eq, Ref.read]

theorem findKey_read (E : Env) (m : Mem) (kvs : List (Ref × LVal)) (name : Bytes) : findKeyL E m kvs name = findKey E (readM m kvs) name := by
  simp [findKeyL, findKey, readM_eq, List.findIdx?_map, Function.comp_def]

theorem index_read (E : Env) (m : Mem) (ku : Bool) (kvs : List (Ref × LVal)) (name : Bytes) :
    indexByName E ku (readM m kvs) name =
      ((indexByNameL E m ku kvs name).1, (indexByNameL E m ku kvs name).2.1, readM m (indexByNameL E m ku kvs name).2.2) := by
  unfold indexByName indexByNameL
  rw [← findKey_read, ← unesc_read, ← findKey_read]
  split
  · cases findKeyL E m kvs name <;> rfl
  · rfl

theorem unesc_all {P : Ref → Prop} (E : Env) (m : Mem) (ku : Bool) {kvs : List (Ref × LVal)} (hP : ∀ b, P (.own b)) (h : AllM P kvs) : AllM P (unescKeysL E m ku kvs) := by
  unfold unescKeysL
  split
  · exact h
  · rw [allM_iff] at h ⊢
    intro kv hkv
    simp only [List.mem_map] at hkv
    obtain ⟨a, ha, rfl⟩ := hkv
    exact ⟨hP _, (h a ha).2⟩

theorem index_all {P : Ref → Prop} (E : Env) (m : Mem) (ku : Bool) {kvs : List (Ref × LVal)} (hP : ∀ b, P (.own b)) (h : AllM P kvs) (name : Bytes) :
    AllM P (indexByNameL E m ku kvs name).2.2 := by
  unfold indexByNameL
  split
  · cases findKeyL E m kvs name
    · exact unesc_all E m ku hP h
    · exact h
  · exact unesc_all E m ku hP h

theorem readM_modify (m : Mem) (kvs : List (Ref × LVal)) (i : Nat) (v : LVal) :
    readM m (kvs.modify i (fun kv => (kv.1, v))) = (readM m kvs).modify i (fun kv => (kv.1, v.read m)) := by
  simp only [readM_eq]
  apply List.ext_getElem?
  intro j
  simp only [List.getElem?_map, List.getElem?_modify]
  by_cases hij : i = j
  · subst hij; simp; cases kvs[i]? <;> simp
  · simp [hij]

theorem allM_modify {P : Ref → Prop} {kvs : List (Ref × LVal)} (h : AllM P kvs) {v : LVal} (hv : v.All P) (i : Nat) : AllM P (kvs.modify i (fun kv => (kv.1, v))) := by
  rw [allM_iff] at h ⊢
  intro kv hkv
  obtain ⟨j, hj⟩ := List.getElem?_of_mem hkv
  rw [List.getElem?_modify] at hj
  cases ha : kvs[j]? with
  | none => rw [ha] at hj; cases hj
  | some a =>
    rw [ha] at hj
    have := h a (List.mem_of_getElem? ha)
    simp only [Option.map_eq_map, Option.map_some, Option.some.injEq] at hj
    subst hj
    split
    · exact ⟨this.1, hv⟩
    · exact this

theorem setKey_read (E : Env) (m : Mem) (ku : Bool) (kvs : List (Ref × LVal)) (k : Ref) (v : LVal) :
    setKeyValueObj E ku (readM m kvs) (k.read m) (v.read m) = ((setKeyL E m ku kvs k v).1, readM m (setKeyL E m ku kvs k v).2) := by
  unfold setKeyValueObj setKeyL
  rw [index_read]
  rcases indexByNameL E m ku kvs (k.read m) with ⟨i, ku', kvs'⟩
  cases i with
  | none => simp [readM_eq]
  | some i => simp [readM_modify]

theorem setKey_all {P : Ref → Prop} (E : Env) (m : Mem) (ku : Bool) {kvs : List (Ref × LVal)} (hP : ∀ b, P (.own b)) (h : AllM P kvs) {k : Ref} (hk : P k) {v : LVal}
    (hv : v.All P) : AllM P (setKeyL E m ku kvs k v).2 := by
  unfold setKeyL
  have := index_all E m ku hP h (k.read m)
  rcases hi : indexByNameL E m ku kvs (k.read m) with ⟨i, ku', kvs'⟩
  rw [hi] at this
  cases i with
  | none =>
    rw [allM_iff] at this ⊢
    intro kv hkv
    simp only [List.mem_append, List.mem_singleton] at hkv
    rcases hkv with hkv | rfl
    · exact this kv hkv
    · exact ⟨hk, hv⟩
  | some i => exact allM_modify this hv i

/-! ## The parser -/

/-- The results agree: the same tree, the same rest of the input, references as they should be. -/
def VR (m : Mem) (share : Bool) (I : Input) (x : LVal × Bytes) (y : Val × Bytes) : Prop :=
  x.1.read m = y.1 ∧ x.2 = y.2 ∧ y.2 <:+ I.bytes ∧ x.1.All (Fits share I)

theorem mpStr_ok {m : Mem} {I : Input} (hm : Holds m I) (share : Bool) (code : UInt8) {b : Bytes} (hb : b <:+ I.bytes) :
    RR (fun x y => x.1.read m = y.1 ∧ x.2 = y.2 ∧ y.2 <:+ I.bytes ∧ Fits share I x.1) (mpStr share I code b) (MsgPack.parseStr code b) := by
  unfold mpStr MsgPack.parseStr
  refine RR.bind (P := fun x y => x = y ∧ x.2 <:+ b) (RR.same ?_) ?_
  · intro a ha
    have := MsgPack.good_mapErr (e := .parseObjLen) (MsgPack.good_len code b)
    rw [ha] at this
    exact ⟨rfl, this⟩
  · rintro ⟨n, t⟩ _ ⟨rfl, ht⟩
    simp only at ht ⊢
    have ht' := ht.trans hb
    split
    · exact ⟨rfl, rfl, ht', trivial⟩
    split
    · rename_i h1 h2
      refine ⟨?_, rfl, (List.drop_suffix _ _).trans ht', mk_fits share ht' (by omega)⟩
      rw [mk_read hm share ht', List.take_append_of_le_length h2]
    · rfl

theorem mpElems_ok {m : Mem} {I : Input} {share : Bool} {p : Bytes → Res (LVal × Bytes)} {q : Bytes → Res (Val × Bytes)}
    (hp : ∀ b, b <:+ I.bytes → RR (VR m share I) (p b) (q b)) : ∀ n b, b <:+ I.bytes →
    RR (fun x y => readL m x.1 = y.1 ∧ x.2 = y.2 ∧ y.2 <:+ I.bytes ∧ AllL (Fits share I) x.1) (mpElems p n b) (MsgPack.parseElems q n b)
  | 0, b, hb => ⟨by simp [readL], rfl, hb, trivial⟩
  | n + 1, b, hb => by
    unfold mpElems MsgPack.parseElems
    refine RR.bind (hp b hb) ?_
    rintro ⟨v, t⟩ ⟨w, _⟩ ⟨rfl, rfl, ht, ha⟩
    refine RR.bind (mpElems_ok hp n t ht) ?_
    rintro ⟨vs, t⟩ ⟨ws, _⟩ ⟨rfl, rfl, ht, has⟩
    exact ⟨by simp [readL], rfl, ht, ha, has⟩

theorem mpMembers_ok {E : Env} {m : Mem} {I : Input} (hm : Holds m I) {share : Bool} {p : Bytes → Res (LVal × Bytes)} {q : Bytes → Res (Val × Bytes)}
    (hp : ∀ b, b <:+ I.bytes → RR (VR m share I) (p b) (q b)) : ∀ n ku kvs b, b <:+ I.bytes → AllM (Fits share I) kvs →
    RR (VR m share I) (mpMembers E m share I p n ku kvs b) (MsgPack.parseMembers E q n ku (readM m kvs) b)
  | 0, ku, kvs, b, hb, hk => ⟨by simp [LVal.read], rfl, hb, by simpa [LVal.All] using hk⟩
  | n + 1, ku, kvs, b, hb, hk => by
    unfold mpMembers MsgPack.parseMembers
    refine RR.bind (P := fun x y => x = y ∧ x.2 <:+ I.bytes) (RR.same ?_) ?_
    · intro a ha
      refine ⟨rfl, ?_⟩
      cases b with
      | nil => cases ha
      | cons c b => cases ha; exact (List.suffix_cons c b).trans hb
    rintro ⟨code, t⟩ _ ⟨rfl, ht⟩
    refine RR.bind (mpStr_ok hm share code ht) ?_
    rintro ⟨k, t⟩ ⟨_, _⟩ ⟨rfl, rfl, ht, hf⟩
    refine RR.bind (hp t ht) ?_
    rintro ⟨v, t⟩ ⟨_, _⟩ ⟨rfl, rfl, ht, ha⟩
    simp only at ht ⊢
    rw [setKey_read]
    exact mpMembers_ok hm hp n _ _ t ht (setKey_all E m ku (fun _ => trivial) hk hf ha)

theorem ite_eq_elim {α : Type} {c : Prop} [Decidable c] {x y r : α} {P : Prop} (h1 : x = r → P) (h2 : y = r → P) : (if c then x else y) = r → P := by
  split
  · exact h1
  · exact h2

theorem mpValue_other {E : Env} {fuel : Nat} {c : UInt8} {b : Bytes} {v : Val} {t : Bytes} (h1 : isStr c = false) (h2 : isArray c = false) (h3 : isMap c = false)
    (h4 : isBin c = false) (h5 : isExt c = false) (h : MsgPack.parseValue E (fuel + 1) (c :: b) = .ok (v, t)) : NoBytes v ∧ t <:+ c :: b := by
  simp only [MsgPack.parseValue, readCode, Res.bind_ok, h1, h2, h3, h4, h5, Bool.false_eq_true, if_false] at h
  have hb : b <:+ c :: b := List.suffix_cons c b
  have hs : ∀ {r : Res (Nat × Bytes)} {f : Nat × Bytes → Res (Val × Bytes)}, MsgPack.Good b r → (r >>= f) = .ok (v, t) →
      (∀ x, f x = .ok (v, t) → NoBytes v ∧ t = x.2) → NoBytes v ∧ t <:+ c :: b := by
    intro r f hg he hf
    cases r with
    | ok x =>
      obtain ⟨e1, rfl⟩ := hf x he
      exact ⟨e1, List.IsSuffix.trans hg hb⟩
    | err e => cases he
    | panic => cases he
    | loop => cases he
  revert h
  repeat' refine ite_eq_elim ?_ ?_
  all_goals intro h
  all_goals first
    | exact hs (MsgPack.good_u8 b) h (fun x hx => by cases hx; exact ⟨trivial, rfl⟩)
    | exact hs (MsgPack.good_u16 b) h (fun x hx => by cases hx; exact ⟨trivial, rfl⟩)
    | exact hs (MsgPack.good_u32 b) h (fun x hx => by cases hx; exact ⟨trivial, rfl⟩)
    | exact hs (MsgPack.good_u64 b) h (fun x hx => by cases hx; exact ⟨trivial, rfl⟩)
    | (cases h; exact ⟨trivial, hb⟩)
    | (cases h; exact ⟨trivial, List.nil_suffix⟩)

theorem not_num (c : UInt8) (h : isBin c = true ∨ isExt c = true) : isStr c = false ∧ isArray c = false ∧ isMap c = false ∧ isFixedNum c = false ∧
    (c == 0xcc) = false ∧ (c == 0xd0) = false ∧ (c == 0xcd) = false ∧ (c == 0xd1) = false ∧ (c == 0xce) = false ∧ (c == 0xd2) = false ∧
    (c == 0xd3 || c == 0xcf) = false ∧ (c == 0xca) = false ∧ (c == 0xcb) = false ∧ (c == 0xc3) = false ∧ (c == 0xc2) = false ∧ (c == 0xc0) = false := by
  obtain ⟨c⟩ := c
  revert c
  decide +kernel

/-- The parser with references against the parser on trees. -/
theorem mpValue_ok (E : Env) {m : Mem} {I : Input} (hm : Holds m I) (share : Bool) : ∀ fuel b, b <:+ I.bytes →
    RR (VR m share I) (mpValue E m share I fuel b) (MsgPack.parseValue E fuel b)
  | 0, b, hb => trivial
  | fuel + 1, b, hb => by
    cases b with
    | nil => rfl
    | cons c b =>
      have hb' : b <:+ I.bytes := (List.suffix_cons c b).trans hb
      have ih := mpValue_ok E hm share fuel
      unfold mpValue
      simp only [readCode, Res.bind_ok]
      by_cases h1 : isStr c = true
      · rw [if_pos h1, MsgPack.parseValue]
        simp only [readCode, Res.bind_ok, h1, if_true]
        refine RR.bind (mpStr_ok hm share c hb') ?_
        rintro ⟨s, t⟩ ⟨_, _⟩ ⟨rfl, rfl, ht, hf⟩
        exact ⟨rfl, rfl, ht, hf⟩
      rw [if_neg h1]
      by_cases h2 : isArray c = true
      · rw [if_pos h2, MsgPack.parseValue]
        simp only [readCode, Res.bind_ok, h1, h2, if_true, Bool.false_eq_true, if_false]
        unfold mpArray MsgPack.parseArray
        refine RR.bind (P := fun x y => x = y ∧ x.2 <:+ I.bytes) (RR.same ?_) ?_
        · intro a ha
          have := MsgPack.good_arrLen c b
          rw [ha] at this
          exact ⟨rfl, List.IsSuffix.trans this hb'⟩
        rintro ⟨n, t⟩ _ ⟨rfl, ht⟩
        refine RR.bind (mpElems_ok ih n t ht) ?_
        rintro ⟨vs, t⟩ ⟨_, _⟩ ⟨rfl, rfl, ht, hf⟩
        exact ⟨by simp [LVal.read], rfl, ht, by simpa [LVal.All] using hf⟩
      rw [if_neg h2]
      by_cases h3 : isMap c = true
      · rw [if_pos h3, MsgPack.parseValue]
        simp only [readCode, Res.bind_ok, h1, h2, h3, if_true, Bool.false_eq_true, if_false]
        unfold mpObject MsgPack.parseObject
        refine RR.bind (P := fun x y => x = y ∧ x.2 <:+ I.bytes) (RR.same ?_) ?_
        · intro a ha
          have := MsgPack.good_mapLen c b
          rw [ha] at this
          exact ⟨rfl, List.IsSuffix.trans this hb'⟩
        rintro ⟨n, t⟩ _ ⟨rfl, ht⟩
        simp only at ht ⊢
        split
        · exact ⟨by simp [LVal.read, readM], rfl, ht, by simp [LVal.All, AllM]⟩
        cases t with
        | nil => trivial
        | cons k t =>
          simp only
          split
          · rfl
          · have := mpMembers_ok (E := E) hm ih n false [] _ ht trivial
            simpa [readM] using this
      rw [if_neg h3]
      by_cases h4 : isBin c = true
      · obtain ⟨n1, n2, n3, n4, n5, n6, n7, n8, n9, n10, n11, n12, n13, n14, n15, n16⟩ := not_num c (Or.inl h4)
        rw [if_pos h4, MsgPack.parseValue]
        simp only [readCode, Res.bind_ok, n1, n2, n3, n4, n5, n6, n7, n8, n9, n10, n11, n12, n13, n14, n15, n16, h4, if_true, Bool.false_eq_true, if_false]
        unfold mpBin MsgPack.parseBin
        refine RR.bind (P := fun x y => x = y ∧ x.2 <:+ I.bytes) (RR.same ?_) ?_
        · intro a ha
          have := MsgPack.good_len c b
          rw [ha] at this
          exact ⟨rfl, List.IsSuffix.trans this hb'⟩
        rintro ⟨n, t⟩ _ ⟨rfl, ht⟩
        simp only at ht ⊢
        split
        · rename_i h
          refine ⟨?_, rfl, (List.drop_suffix _ _).trans ht, mk_fits share ht (by omega)⟩
          simp [LVal.read, mk_read hm share ht, List.take_append_of_le_length h]
        · rfl
      rw [if_neg h4]
      by_cases h5 : isExt c = true
      · obtain ⟨n1, n2, n3, n4, n5, n6, n7, n8, n9, n10, n11, n12, n13, n14, n15, n16⟩ := not_num c (Or.inr h5)
        rw [if_pos h5, MsgPack.parseValue]
        simp only [readCode, Res.bind_ok, n1, n2, n3, n4, n5, n6, n7, n8, n9, n10, n11, n12, n13, n14, n15, n16, h4, h5, if_true, Bool.false_eq_true, if_false]
        unfold mpExt MsgPack.parseExt
        refine RR.bind (P := fun x y => x = y ∧ x.2 <:+ I.bytes) (RR.same ?_) ?_
        · intro a ha
          have := MsgPack.good_extLen c b
          rw [ha] at this
          exact ⟨rfl, List.IsSuffix.trans this hb'⟩
        rintro ⟨n, t⟩ _ ⟨rfl, ht⟩
        simp only at ht ⊢
        split
        · rfl
        refine RR.bind (P := fun x y => x = y ∧ x <:+ I.bytes ∧ n + 1 ≤ t.length) (RR.same ?_) ?_
        · intro a ha
          unfold sliceFrom at ha
          split at ha
          · cases ha; exact ⟨rfl, (List.drop_suffix _ _).trans ht, by assumption⟩
          · cases ha
        rintro tail _ ⟨rfl, htl, hle⟩
        cases t with
        | nil => trivial
        | cons ty t =>
          simp only
          split
          · refine RR.bind (P := fun x y => x = y) (RR.same fun _ _ => rfl) ?_
            rintro d _ rfl
            exact ⟨rfl, rfl, htl, trivial⟩
          · refine ⟨?_, rfl, htl, mk_fits share ht (by omega)⟩
            show Val.exbin 0 ((mk _ _ _ _).read m) = _
            rw [mk_read hm share ht, List.take_append_of_le_length hle]
      rw [if_neg h5]
      have ho := fun v t => mpValue_other (E := E) (fuel := fuel) (b := b) (v := v) (t := t) (by simpa using h1 : isStr c = false) (by simpa using h2)
        (by simpa using h3) (by simpa using h4) (by simpa using h5)
      cases hx : MsgPack.parseValue E (fuel + 1) (c :: b) with
      | ok x =>
        obtain ⟨e1, e2⟩ := ho x.1 x.2 hx
        exact ⟨rfl, rfl, e2.trans hb, e1⟩
      | err e => rfl
      | panic => trivial
      | loop => trivial

end Dxs.Buf
