import Verif.MsgPack.Lemmas

/-! The decoder accepts every serialisation allowed by the specification (helper file for C01). -/

namespace Dxs.MsgPack
open Spec

theorem sx8_toInt (n : Int) (h : -2 ^ 7 ≤ n) (h' : n < 2 ^ 7) : (sx8 (n % 256).toNat).toInt = n := by
  unfold sx8
  rw [BitVec.toInt_signExtend_of_le (by omega)]
  rw [BitVec.toInt_eq_toNat_cond, BitVec.toNat_ofNat]
  split <;> omega

theorem sx16_toInt (n : Int) (h : -2 ^ 15 ≤ n) (h' : n < 2 ^ 15) : (sx16 (n % 65536).toNat).toInt = n := by
  unfold sx16
  rw [BitVec.toInt_signExtend_of_le (by omega)]
  rw [BitVec.toInt_eq_toNat_cond, BitVec.toNat_ofNat]
  split <;> omega

theorem sx32_toInt (n : Int) (h : -2 ^ 31 ≤ n) (h' : n < 2 ^ 31) :
    (sx32 (n % 4294967296).toNat).toInt = n := by
  unfold sx32
  rw [BitVec.toInt_signExtend_of_le (by omega)]
  rw [BitVec.toInt_eq_toNat_cond, BitVec.toNat_ofNat]
  split <;> omega

theorem ofNat_toInt (n : Int) (h : -2 ^ 63 ≤ n) (h' : n < 2 ^ 63) :
    (BitVec.ofNat 64 (n % 18446744073709551616).toNat).toInt = n := by
  rw [BitVec.toInt_eq_toNat_cond, BitVec.toNat_ofNat]
  split <;> omega

theorem ofNat_toInt' (n : Int) (h : 0 ≤ n) (h' : n < 2 ^ 63) :
    (BitVec.ofNat 64 n.toNat).toInt = n := by
  rw [BitVec.toInt_eq_toNat_cond, BitVec.toNat_ofNat]
  split <;> omega

theorem int_dec {E : Env} {f : Nat} {n : Int} {bs r : Bytes} (h : IntFmt n bs)
    (h0 : -2 ^ 63 ≤ n) (h1 : n < 2 ^ 63) :
    ∃ c : BitVec 64, c.toInt = n ∧ parseValue E (f + 1) (bs ++ r) = .ok (.int 0 c, r) := by
  rcases h with ⟨a, b, rfl⟩ | ⟨a, b, rfl⟩ | ⟨a, b, rfl⟩ | ⟨a, b, rfl⟩ | ⟨a, b, rfl⟩ | ⟨a, b, rfl⟩ |
    ⟨a, b, rfl⟩ | ⟨a, b, rfl⟩ | ⟨a, b, rfl⟩ | ⟨a, b, rfl⟩
  · refine ⟨_, sx8_toInt n (by omega) (by omega), ?_⟩
    rw [List.singleton_append, pv_fix (by simp [isFixedNum]; omega)]
    simp
    congr 1; omega
  · refine ⟨_, sx8_toInt n (by omega) (by omega), ?_⟩
    rw [List.singleton_append, pv_fix (by simp [isFixedNum]; omega)]
    simp
    congr 1; omega
  · refine ⟨_, ofNat_toInt' n a (by omega), ?_⟩
    rw [List.cons_append]
    simp [parseValue, readCode, isStr, isArray, isMap, isFixedNum, parseUint8_be n.toNat (by omega)]
  · refine ⟨_, ofNat_toInt' n a (by omega), ?_⟩
    rw [List.cons_append]
    simp [parseValue, readCode, isStr, isArray, isMap, isFixedNum, parseUint16_be n.toNat (by omega)]
  · refine ⟨_, ofNat_toInt' n a (by omega), ?_⟩
    rw [List.cons_append]
    simp [parseValue, readCode, isStr, isArray, isMap, isFixedNum, parseUint32_be n.toNat (by omega)]
  · refine ⟨_, ofNat_toInt' n a (by omega), ?_⟩
    rw [List.cons_append]
    simp [parseValue, readCode, isStr, isArray, isMap, isFixedNum, parseUint64_be n.toNat (by omega)]
  · refine ⟨_, sx8_toInt n a b, ?_⟩
    rw [List.cons_append]
    have := parseUint8_be (n % 256).toNat (by omega) r
    simp [parseValue, readCode, isStr, isArray, isMap, isFixedNum, beI, this]
  · refine ⟨_, sx16_toInt n a b, ?_⟩
    rw [List.cons_append]
    have := parseUint16_be (n % 65536).toNat (by omega) r
    simp [parseValue, readCode, isStr, isArray, isMap, isFixedNum, beI, this]
  · refine ⟨_, sx32_toInt n a b, ?_⟩
    rw [List.cons_append]
    have := parseUint32_be (n % 4294967296).toNat (by omega) r
    simp [parseValue, readCode, isStr, isArray, isMap, isFixedNum, beI, this]
  · refine ⟨_, ofNat_toInt n a b, ?_⟩
    rw [List.cons_append]
    have := parseUint64_be (n % 18446744073709551616).toNat (by omega) r
    simp [parseValue, readCode, isStr, isArray, isMap, isFixedNum, beI, this]

theorem ofInt_nonneg (n : Int) (h : 0 ≤ n) : BitVec.ofNat 64 n.toNat = BitVec.ofInt 64 n := by
  apply BitVec.eq_of_toNat_eq
  simp; omega

theorem ofInt_emod (n : Int) :
    BitVec.ofNat 64 (n % 18446744073709551616).toNat = BitVec.ofInt 64 n := by
  apply BitVec.eq_of_toNat_eq
  simp; omega

theorem ts_dec {E : Env} {f : Nat} {sec : Int} {nsec : Nat} {bs r : Bytes} (h : TsFmt sec nsec bs) :
    parseValue E (f + 1) (bs ++ r) = .ok (.dateTime (E.ofUnix (BitVec.ofInt 64 sec) nsec), r) := by
  rcases h with ⟨a, b, rfl, rfl⟩ | ⟨a, b, hn, rfl⟩ | ⟨a, b, hn, rfl⟩
  · rw [List.cons_append, pv_ext (by simp)]
    have e := goUint32_be sec.toNat (by omega) r
    have l := be_length 4 sec.toNat
    simp [parseExt, parseExtLen, isTime, parseTime, sliceFrom, e, l]
    rw [if_neg (by omega), ofInt_nonneg sec a]
  · rw [List.cons_append, pv_ext (by simp)]
    have e := goUint64_be (nsec * 2 ^ 34 + sec.toNat) (by omega) r
    have l := be_length 8 (nsec * 2 ^ 34 + sec.toNat)
    have m : ∀ x : Nat, x &&& 17179869183 = x % 17179869184 :=
      fun x => Nat.and_two_pow_sub_one_eq_mod x 34
    simp only [parseExt, parseExtLen, isTime, parseTime, sliceFrom, m, Nat.shiftRight_eq_div_pow]
    simp [e, l]
    rw [if_neg (by omega),
      show sec.toNat % 17179869184 = sec.toNat by omega,
      show (nsec * 17179869184 + sec.toNat) / 17179869184 = nsec by omega, ofInt_nonneg sec a]
  · rw [List.cons_append, pv_ext (by simp)]
    have l := be_length 4 nsec
    have l' := be_length 8 (sec % 18446744073709551616).toNat
    have e := goUint32_be nsec (by omega) (be 8 (sec % 18446744073709551616).toNat ++ r)
    have e2 := goUint64_be (sec % 18446744073709551616).toNat (by omega) r
    simp [parseExt, parseExtLen, isTime, parseTime, sliceFrom, parseUint8, e, l, beI, l']
    rw [if_neg (by omega), if_pos (by omega)]
    simp [List.drop_append, l, l', e2, ofInt_emod]

/-! ### members: building an object with pairwise different keys -/

theorem findKey_none {E : Env} {kvs : List (Bytes × Val)} {k : Bytes}
    (h : ∀ kv ∈ kvs, E.keyMatch kv.1 k = false) : findKey E kvs k = none := by
  unfold findKey
  rw [List.findIdx?_eq_none_iff]
  exact h

theorem setKeyValueObj_new {E : Env} {kvs : List (Bytes × Val)} {k : Bytes} {v : Val} {ku : Bool}
    (hku : ku = true ∨ kvs = [])
    (h : ∀ kv ∈ kvs, E.keyMatch kv.1 k = false) :
    setKeyValueObj E ku kvs k v = (true, kvs ++ [(k, v)]) := by
  have hu : unescKeys E ku kvs = kvs := by
    rcases hku with rfl | rfl <;> simp [unescKeys]
  unfold setKeyValueObj indexByName
  rw [hu, findKey_none h]
  by_cases hc : (!ku && !(k.contains 92)) = true <;> simp

theorem setKeyValueObj_put {E : Env} {kvs : List (Bytes × Val)} {k : Bytes} {v : Val} {ku : Bool}
    (hku : ku = true ∨ kvs = []) :
    setKeyValueObj E ku kvs k v = (true, Assoc.put E.keyMatch kvs k v) := by
  rcases hku with rfl | rfl
  · rw [Assoc.put_findIdx]
    simp only [setKeyValueObj, indexByName, unescKeys, findKey, Bool.not_true, Bool.false_and, if_true]
    cases kvs.findIdx? (fun kv => E.keyMatch kv.1 k) <;> rfl
  · simp only [setKeyValueObj, indexByName, unescKeys, findKey, Assoc.put]
    cases ku <;> cases (k.contains 92) <;> simp

mutual
theorem dec_ok (E : Env) : ∀ (d : MData) (bs r : Bytes) (f : Nat), Enc d bs → Fits d →
    bs.length ≤ f → ∃ v, Denotes E d v ∧ parseValue E (f + 1) (bs ++ r) = .ok (v, r)
  | .nil, bs, r, f, h, _, _ => by
    subst h; exact ⟨_, rfl, by simp [parseValue, readCode, isStr, isArray, isMap, isFixedNum]⟩
  | .bool b, bs, r, f, h, _, _ => by
    subst h
    cases b <;> exact ⟨_, rfl, by simp [parseValue, readCode, isStr, isArray, isMap, isFixedNum]⟩
  | .int n, bs, r, f, h, hf, _ => by
    obtain ⟨c, hc, e⟩ := int_dec (E := E) (f := f) (r := r) h hf.1 hf.2
    exact ⟨_, ⟨c, rfl, hc⟩, e⟩
  | .f32 x, bs, r, f, h, _, _ => by
    subst h
    refine ⟨_, rfl, ?_⟩
    rw [List.cons_append]
    simp [parseValue, readCode, isStr, isArray, isMap, isFixedNum, parseUint32_be x.toNat x.isLt, ofF32_eq]
  | .f64 x, bs, r, f, h, _, _ => by
    subst h
    refine ⟨_, rfl, ?_⟩
    rw [List.cons_append]
    simp [parseValue, readCode, isStr, isArray, isMap, isFixedNum, parseUint64_be x.toNat x.isLt]
  | .str s, bs, r, f, h, _, _ => by
    obtain ⟨hd, hh, rfl⟩ := h
    obtain ⟨c, h', rfl, hs, hl⟩ := strHdr_dec hh
    refine ⟨_, rfl, ?_⟩
    rw [List.append_assoc, List.cons_append, pv_str hs, parseStr_of_len (hl _)]
    rfl
  | .bin s, bs, r, f, h, _, _ => by
    obtain ⟨hd, hh, rfl⟩ := h
    obtain ⟨c, h', rfl, hs, hl⟩ := binHdr_dec hh
    refine ⟨_, rfl, ?_⟩
    rw [List.append_assoc, List.cons_append, pv_bin hs]
    simp [parseBin, hl]
  | .ext ty p, bs, r, f, h, _, _ => by
    obtain ⟨hd, hh, hty, rfl⟩ := h
    obtain ⟨c, h', rfl, hs, hl⟩ := extHdr_dec hh
    refine ⟨_, rfl, ?_⟩
    rw [List.append_assoc, List.cons_append, pv_ext hs]
    simp [parseExt, hl, sliceFrom, isTime, hty]
    omega
  | .ts sec nsec, bs, r, f, h, _, _ => ⟨_, rfl, ts_dec h⟩
  | .arr xs, bs, r, f, h, hf, hl => by
    obtain ⟨hd, body, hh, hb, rfl⟩ := h
    obtain ⟨c, h', rfl, h1, h2, h3⟩ := arrHdr_dec hh
    simp at hl
    obtain ⟨f, rfl⟩ : ∃ g, f = g + 1 := ⟨f - 1, by omega⟩
    obtain ⟨vs, hv, e⟩ := decL_ok E xs body r f hb hf (by omega)
    refine ⟨_, ⟨vs, rfl, hv⟩, ?_⟩
    rw [List.append_assoc, List.cons_append, pv_arr h1 h2]
    simp [parseArray, h3, e]
  | .map kvs, bs, r, f, h, hf, hl => by
    obtain ⟨hd, body, hh, hb, rfl⟩ := h
    obtain ⟨c, h', rfl, h1, h2, h3, h4⟩ := mapHdr_dec hh
    simp at hl
    obtain ⟨f, rfl⟩ : ∃ g, f = g + 1 := ⟨f - 1, by omega⟩
    cases kvs with
    | nil =>
      have hb : body = [] := hb
      subst hb
      refine ⟨_, ⟨false, [], rfl, by simp, rfl⟩, ?_⟩
      rw [List.append_assoc, List.cons_append, pv_map h1 h2 h3]
      simp [parseObject, h4, Assoc.lastWins, Assoc.putAll]
    | cons kv kvs =>
      obtain ⟨vs, hv, e⟩ := decM_ok E (kv :: kvs) body r f hb hf (by omega) false [] (Or.inr rfl)
      refine ⟨_, ⟨true, vs, rfl, by simp, hv⟩, ?_⟩
      rw [List.append_assoc, List.cons_append, pv_map h1 h2 h3]
      simp only [parseObject, h4, Res.bind_ok]
      obtain ⟨k, d⟩ := kv
      obtain ⟨hk, b1, b2, hhk, hd1, hd2, rfl⟩ := hb
      obtain ⟨c2, h2', rfl, g1, g2⟩ := strHdr_dec hhk
      simp [g1]
      simpa [Assoc.lastWins] using e
theorem decL_ok (E : Env) : ∀ (ds : List MData) (bs r : Bytes) (f : Nat), EncL ds bs → FitsL ds →
    bs.length ≤ f → ∃ vs, DenotesL E ds vs ∧
      parseElems (parseValue E (f + 1)) ds.length (bs ++ r) = .ok (vs, r)
  | [], bs, r, f, h, _, _ => by
    have h : bs = [] := h
    subst h; exact ⟨[], rfl, rfl⟩
  | d :: ds, bs, r, f, h, hf, hl => by
    obtain ⟨b1, b2, h1, h2, rfl⟩ := h
    simp at hl
    obtain ⟨v, hv, e⟩ := dec_ok E d b1 (b2 ++ r) f h1 hf.1 (by omega)
    obtain ⟨vs, hvs, es⟩ := decL_ok E ds b2 r f h2 hf.2 (by omega)
    refine ⟨v :: vs, ⟨v, vs, rfl, hv, hvs⟩, ?_⟩
    simp [parseElems, List.append_assoc, e, es]
theorem decM_ok (E : Env) : ∀ (kvs : List (Bytes × MData)) (bs r : Bytes) (f : Nat), EncM kvs bs →
    FitsM kvs → bs.length ≤ f → ∀ (ku : Bool) (acc : List (Bytes × Val)),
    (ku = true ∨ acc = []) →
    ∃ vs, DenotesM E kvs vs ∧
      parseMembers E (parseValue E (f + 1)) kvs.length ku acc (bs ++ r) =
        .ok (.obj (if kvs.length = 0 then ku else true) (Assoc.putAll E.keyMatch acc vs), r)
  | [], bs, r, f, h, _, _, ku, acc, hku => by
    have h : bs = [] := h
    subst h; exact ⟨[], rfl, by simp [parseMembers, Assoc.putAll]⟩
  | (k, d) :: kvs, bs, r, f, h, hf, hl, ku, acc, hku => by
    obtain ⟨hd', b1, b2, hh, h1, h2, rfl⟩ := h
    obtain ⟨c, h', rfl, g1, g2⟩ := strHdr_dec hh
    simp at hl
    obtain ⟨v, hv, e⟩ := dec_ok E d b1 (b2 ++ r) f h1 hf.1 (by omega)
    obtain ⟨vs, hvs, es⟩ := decM_ok E kvs b2 r f h2 hf.2 (by omega) true (Assoc.put E.keyMatch acc k v)
      (Or.inl rfl)
    refine ⟨(k, v) :: vs, ⟨v, vs, rfl, hv, hvs⟩, ?_⟩
    simp only [parseMembers, List.length_cons, List.append_assoc, List.cons_append, readCode,
      Res.bind_ok]
    rw [parseStr_of_len (g2 _)]
    simp only [Res.bind_ok, e, setKeyValueObj_put hku, es]
    simp [Assoc.putAll]
end

end Dxs.MsgPack
