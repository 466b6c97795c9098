import Verif.MsgPack.Decode

/-! The encoder appends, and what it appends is a serialisation allowed by the specification. -/

namespace Dxs.MsgPack
open Spec

/-! ### append-only -/

theorem overwrite_at_end (dst z bs : Bytes) (h : z.length = bs.length) :
    overwrite (dst ++ z) dst.length bs = dst ++ bs := by
  simp [overwrite, h]

theorem writeTime_eq (E : Env) (c : F64) (dst : Bytes) :
    writeTime E c dst = dst ++
      (if (E.unixSec c).toNat >>> 34 = 0 then
        if (((E.unixNano c).val <<< 34) ||| (E.unixSec c).toNat) &&& 0xffffffff00000000 = 0 then
          0xd6 :: 0xff :: put32 ((((E.unixNano c).val <<< 34) ||| (E.unixSec c).toNat : Nat) : Int)
        else
          0xd7 :: 0xff :: put64 ((((E.unixNano c).val <<< 34) ||| (E.unixSec c).toNat : Nat) : Int)
      else 0xc7 :: 12 :: 0xff :: (put32 ((E.unixNano c).val : Int) ++ put64 ((E.unixSec c).toNat : Int))) := by
  unfold writeTime
  simp only []
  split
  · split
    · rw [overwrite_at_end _ _ _ (by simp [put32])]; simp
    · rw [overwrite_at_end _ _ _ (by simp [put64])]; simp
  · rw [show ∀ d : Bytes, d ++ [0, 0, 0, 0, 0, 0, 0, 0, 0, 0, 0, 0] = (d ++ [0, 0, 0, 0]) ++ [0, 0, 0, 0, 0, 0, 0, 0] by simp]
    have : ∀ d : Bytes, overwrite (d ++ [0, 0, 0, 0] ++ [0, 0, 0, 0, 0, 0, 0, 0]) d.length
        (put32 ((E.unixNano c).val : Int)) = d ++ put32 ((E.unixNano c).val : Int) ++ [0, 0, 0, 0, 0, 0, 0, 0] := by
      intro d
      simp [overwrite, put32]
    rw [this]
    have h4 : ∀ d : Bytes, d.length + 4 = (d ++ put32 ((E.unixNano c).val : Int)).length := by
      intro d; simp [put32]
    rw [h4, overwrite_at_end _ _ _ (by simp [put64])]
    simp

theorem writeStrCode_app (n : Nat) (dst : Bytes) : writeStrCode n dst = dst ++ writeStrCode n [] := by
  unfold writeStrCode
  repeat' split
  all_goals simp
theorem writeMapCode_app (n : Nat) (dst : Bytes) : writeMapCode n dst = dst ++ writeMapCode n [] := by
  unfold writeMapCode
  repeat' split
  all_goals simp
theorem writeArrayCode_app (n : Nat) (dst : Bytes) : writeArrayCode n dst = dst ++ writeArrayCode n [] := by
  unfold writeArrayCode
  repeat' split
  all_goals simp
theorem writeBinCode_app (n : Nat) (dst : Bytes) : writeBinCode n dst = dst ++ writeBinCode n [] := by
  unfold writeBinCode
  repeat' split
  all_goals simp
theorem writeExtCode_app (n : Nat) (dst : Bytes) : writeExtCode n dst = dst ++ writeExtCode n [] := by
  unfold writeExtCode
  by_cases h1 : n = 1
  · simp [h1]
  by_cases h2 : n = 2
  · simp [h2]
  by_cases h4 : n = 4
  · simp [h4]
  by_cases h8 : n = 8
  · simp [h8]
  by_cases h16 : n = 16
  · simp [h16]
  simp only [h1, h2, h4, h8, h16, if_false]
  repeat' split
  all_goals simp
theorem writeInt_app (n : Int) (dst : Bytes) : writeInt n dst = dst ++ writeInt n [] := by
  unfold writeInt
  repeat' split
  all_goals simp

mutual
theorem enc_app (E : Env) : ∀ (v : Val) (dst : Bytes), enc E v dst = dst ++ enc E v []
  | .nil, dst => by simp [enc]
  | .obj _ kvs, dst => by
    simp only [enc]
    rw [encMembers_app E kvs (writeMapCode kvs.length dst), encMembers_app E kvs (writeMapCode kvs.length []),
      writeMapCode_app, List.append_assoc]
  | .arr xs, dst => by
    simp only [enc]
    rw [encElems_app E xs (writeArrayCode xs.length dst), encElems_app E xs (writeArrayCode xs.length []),
      writeArrayCode_app, List.append_assoc]
  | .dateTime c, dst => by simp only [enc]; rw [writeTime_eq, writeTime_eq E c []]; simp
  | .exbin _ b, dst => by simp only [enc]; rw [writeExtCode_app, List.append_assoc]
  | .bin _ b, dst => by simp only [enc]; rw [writeBinCode_app, List.append_assoc]
  | .float c, dst => by simp [enc]
  | .double c, dst => by simp [enc]
  | .int _ c, dst => by simp only [enc]; exact writeInt_app _ _
  | .str s, dst => by simp only [enc]; rw [writeStrCode_app, List.append_assoc]
  | .raw s, dst => by simp only [enc]; rw [writeStrCode_app, List.append_assoc]
  | .fls, dst => by simp [enc]
  | .tru, dst => by simp [enc]
  | .null, dst => by simp [enc]
  | .nan, dst => by simp [enc]
  | .inf, dst => by simp [enc]
theorem encElems_app (E : Env) : ∀ (xs : List Val) (dst : Bytes), encElems E xs dst = dst ++ encElems E xs []
  | [], dst => by simp [encElems]
  | v :: vs, dst => by
    simp only [encElems]
    rw [encElems_app E vs (enc E v dst), encElems_app E vs (enc E v []), enc_app E v dst, List.append_assoc]
theorem encMembers_app (E : Env) : ∀ (kvs : List (Bytes × Val)) (dst : Bytes),
    encMembers E kvs dst = dst ++ encMembers E kvs []
  | [], dst => by simp [encMembers]
  | (k, v) :: kvs, dst => by
    simp only [encMembers]
    rw [encMembers_app E kvs (enc E v (writeStrCode k.length dst ++ k)),
      encMembers_app E kvs (enc E v (writeStrCode k.length [] ++ k)),
      enc_app E v (writeStrCode k.length dst ++ k), enc_app E v (writeStrCode k.length [] ++ k),
      writeStrCode_app k.length dst]
    simp [List.append_assoc]
end

/-! ### the bytes written are big-endian -/

theorem put16_eq (n : Int) (h : 0 ≤ n) : put16 n = be 2 n.toNat := by
  obtain ⟨m, rfl⟩ := Int.eq_ofNat_of_zero_le h
  simp only [put16, be, List.cons.injEq, and_true]
  refine ⟨?_, ?_⟩ <;>
  · apply UInt8.toNat_inj.mp
    simp only [← Int.ofNat_inj, byteI_toNat, Int.shiftRight_eq_div_pow, UInt8.toNat_ofNat']
    simp
    try omega

theorem put32_eq (n : Int) (h : 0 ≤ n) : put32 n = be 4 n.toNat := by
  obtain ⟨m, rfl⟩ := Int.eq_ofNat_of_zero_le h
  simp only [put32, be, List.cons.injEq, and_true]
  refine ⟨?_, ?_, ?_, ?_⟩ <;>
  · apply UInt8.toNat_inj.mp
    simp only [← Int.ofNat_inj, byteI_toNat, Int.shiftRight_eq_div_pow, UInt8.toNat_ofNat']
    simp
    try omega

theorem put64_eq (n : Int) (h : 0 ≤ n) : put64 n = be 8 n.toNat := by
  obtain ⟨m, rfl⟩ := Int.eq_ofNat_of_zero_le h
  simp only [put64, be, List.cons.injEq, and_true]
  refine ⟨?_, ?_, ?_, ?_, ?_, ?_, ?_, ?_⟩ <;>
  · apply UInt8.toNat_inj.mp
    simp only [← Int.ofNat_inj, byteI_toNat, Int.shiftRight_eq_div_pow, UInt8.toNat_ofNat']
    simp
    try omega

/-- Writing a possibly negative number writes its two's complement. -/
theorem put16_emod (n : Int) : put16 n = put16 (n % 65536) := by
  simp only [put16, List.cons.injEq, and_true]
  refine ⟨?_, ?_⟩ <;>
  · apply UInt8.toNat_inj.mp
    have := byteI_toNat (n >>> 8)
    have := byteI_toNat n
    have := byteI_toNat ((n % 65536) >>> 8)
    have := byteI_toNat (n % 65536)
    simp only [Int.shiftRight_eq_div_pow] at *
    omega

theorem put32_emod (n : Int) : put32 n = put32 (n % 4294967296) := by
  simp only [put32, List.cons.injEq, and_true]
  refine ⟨?_, ?_, ?_, ?_⟩ <;>
  · apply UInt8.toNat_inj.mp
    have := byteI_toNat (n >>> 24)
    have := byteI_toNat (n >>> 16)
    have := byteI_toNat (n >>> 8)
    have := byteI_toNat n
    have := byteI_toNat ((n % 4294967296) >>> 24)
    have := byteI_toNat ((n % 4294967296) >>> 16)
    have := byteI_toNat ((n % 4294967296) >>> 8)
    have := byteI_toNat (n % 4294967296)
    simp only [Int.shiftRight_eq_div_pow] at *
    omega

theorem put64_emod (n : Int) : put64 n = put64 (n % 18446744073709551616) := by
  simp only [put64, List.cons.injEq, and_true]
  refine ⟨?_, ?_, ?_, ?_, ?_, ?_, ?_, ?_⟩ <;>
  · apply UInt8.toNat_inj.mp
    simp only [← Int.ofNat_inj, byteI_toNat, Int.shiftRight_eq_div_pow]
    omega

theorem byteI_nat (n : Nat) : byteI n = UInt8.ofNat n := by
  apply UInt8.toNat_inj.mp
  have := byteI_toNat (n : Int)
  simp
  omega

theorem put16_beI (n : Int) : put16 n = beI 2 n := by
  rw [put16_emod, put16_eq _ (by omega)]; rfl
theorem put32_beI (n : Int) : put32 n = beI 4 n := by
  rw [put32_emod, put32_eq _ (by omega)]; rfl
theorem put64_beI (n : Int) : put64 n = beI 8 n := by
  rw [put64_emod, put64_eq _ (by omega)]; rfl
theorem byteI_beI (n : Int) : [byteI n] = beI 1 n := by
  simp only [beI, be, List.cons.injEq, and_true]
  apply UInt8.toNat_inj.mp
  have := byteI_toNat n
  simp
  omega

theorem or_low (base n : Nat) (k : Nat) (hn : n < 2 ^ k) (hb : base % 2 ^ k = 0) (h : base + n < 256) :
    UInt8.ofNat base ||| byteI n = UInt8.ofNat (base + n) := by
  rw [byteI_nat n]
  apply UInt8.toNat_inj.mp
  rw [UInt8.toNat_or]
  simp only [UInt8.toNat_ofNat']
  rw [Nat.mod_eq_of_lt (by omega : n < 2 ^ 8), Nat.mod_eq_of_lt (by omega : base < 2 ^ 8),
    Nat.mod_eq_of_lt (by omega : base + n < 2 ^ 8)]
  have := Nat.two_pow_add_eq_or_of_lt hn (base / 2 ^ k)
  have e : 2 ^ k * (base / 2 ^ k) = base := Nat.mul_div_cancel' (Nat.dvd_of_mod_eq_zero hb)
  rw [e] at this
  exact this.symm

/-! ### headers written are headers of the specification -/

theorem writeStr_hdr (n : Nat) (h : n < 2 ^ 32) : StrHdr n (writeStrCode n []) := by
  unfold writeStrCode StrHdr
  split
  · left; exact ⟨by omega, by simp [← or_low 160 n 5 (by omega) (by omega) (by omega)]⟩
  split
  · right; left; exact ⟨by omega, by simp [be, byteI_nat n]⟩
  split
  · right; right; left; exact ⟨by omega, by simp [put16_eq]⟩
  · right; right; right; exact ⟨by omega, by simp [put32_eq]⟩

theorem writeBin_hdr (n : Nat) (h : n < 2 ^ 32) : BinHdr n (writeBinCode n []) := by
  unfold writeBinCode BinHdr
  split
  · left; exact ⟨by omega, by simp [be, byteI_nat n]⟩
  split
  · right; left; exact ⟨by omega, by simp [put16_eq]⟩
  · right; right; exact ⟨by omega, by simp [put32_eq]⟩

theorem writeArr_hdr (n : Nat) (h : n < 2 ^ 32) : ArrHdr n (writeArrayCode n []) := by
  unfold writeArrayCode ArrHdr
  split
  · left; exact ⟨by omega, by simp [← or_low 144 n 4 (by omega) (by omega) (by omega)]⟩
  split
  · right; left; exact ⟨by omega, by simp [put16_eq]⟩
  · right; right; exact ⟨by omega, by simp [put32_eq]⟩

theorem writeMap_hdr (n : Nat) (h : n < 2 ^ 32) : MapHdr n (writeMapCode n []) := by
  unfold writeMapCode MapHdr
  split
  · left; exact ⟨by omega, by simp [← or_low 128 n 4 (by omega) (by omega) (by omega)]⟩
  split
  · right; left; exact ⟨by omega, by simp [put16_eq]⟩
  · right; right; exact ⟨by omega, by simp [put32_eq]⟩

theorem writeExt_hdr (n : Nat) (h : n < 2 ^ 32) (hf : fixextLen n = false) :
    ExtHdr n (writeExtCode n []) := by
  simp [fixextLen] at hf
  unfold writeExtCode ExtHdr
  simp only [hf, if_false]
  split
  · right; right; right; right; right; left; exact ⟨by omega, by simp [be, byteI_nat n]⟩
  split
  · right; right; right; right; right; right; left; exact ⟨by omega, by simp [put16_eq]⟩
  · right; right; right; right; right; right; right; exact ⟨by omega, by simp [put32_eq]⟩

theorem writeInt_fmt (n : Int) (h0 : -2 ^ 63 ≤ n) (h1 : n < 2 ^ 63) : IntFmt n (writeInt n []) := by
  unfold writeInt IntFmt
  split
  · split
    · left; refine ⟨by omega, by omega, ?_⟩
      simp
      obtain ⟨m, rfl⟩ := Int.eq_ofNat_of_zero_le (by omega : 0 ≤ n)
      exact byteI_nat m
    split
    · right; right; left; refine ⟨by omega, by omega, ?_⟩
      obtain ⟨m, rfl⟩ := Int.eq_ofNat_of_zero_le (by omega : 0 ≤ n)
      simp [be, byteI_nat m]
    split
    · right; right; right; left; exact ⟨by omega, by omega, by simp [put16_eq n (by omega)]⟩
    split
    · right; right; right; right; left; exact ⟨by omega, by omega, by simp [put32_eq n (by omega)]⟩
    · right; right; right; right; right; left; exact ⟨by omega, by omega, by simp [put64_eq n (by omega)]⟩
  · split
    · right; left; refine ⟨by omega, by omega, ?_⟩
      simp only [List.nil_append, List.cons.injEq, and_true]
      apply UInt8.toNat_inj.mp
      have := byteI_toNat n
      simp; omega
    split
    · right; right; right; right; right; right; left
      exact ⟨by omega, by omega, by rw [byteI_beI]; simp⟩
    split
    · right; right; right; right; right; right; right; left
      exact ⟨by omega, by omega, by rw [put16_beI]; simp⟩
    split
    · right; right; right; right; right; right; right; right; left
      exact ⟨by omega, by omega, by rw [put32_beI]; simp⟩
    · right; right; right; right; right; right; right; right; right
      exact ⟨by omega, by omega, by rw [put64_beI]; simp⟩

theorem writeTime_fmt (E : Env) (c : F64) :
    TsFmt (E.unixSec c).toInt (E.unixNano c).val (writeTime E c []) := by
  rw [writeTime_eq]
  generalize E.unixSec c = s
  have hn := (E.unixNano c).isLt
  generalize (E.unixNano c).val = n at *
  have hs := s.isLt
  have hi := BitVec.toInt_eq_toNat_cond s
  simp only [List.nil_append]
  unfold TsFmt
  split
  · rename_i h
    rw [Nat.shiftRight_eq_div_pow] at h
    have hlt : s.toNat < 2 ^ 34 := by omega
    have hi' : s.toInt = (s.toNat : Int) := by rw [hi, if_pos (by omega)]
    have hor : (n <<< 34) ||| s.toNat = n * 2 ^ 34 + s.toNat := by
      rw [← Nat.shiftLeft_add_eq_or_of_lt hlt, Nat.shiftLeft_eq]
    rw [hor, hi']
    split
    · rename_i h2
      have hlt2 : n * 2 ^ 34 + s.toNat < 2 ^ 32 := by
        have hm : ∀ x : Nat, x < 2 ^ 64 → x &&& 0xffffffff00000000 = x / 2 ^ 32 * 2 ^ 32 := by
          intro x hx
          apply Nat.eq_of_testBit_eq
          intro i
          rw [Nat.testBit_and, show (0xffffffff00000000 : Nat) = (2 ^ 32 - 1) <<< 32 by decide,
            Nat.testBit_shiftLeft, ← Nat.shiftLeft_eq, Nat.testBit_shiftLeft, Nat.testBit_two_pow_sub_one,
            ← Nat.shiftRight_eq_div_pow, Nat.testBit_shiftRight]
          by_cases hi : 32 ≤ i
          · simp [hi, show 32 + (i - 32) = i by omega]
            intro h
            by_cases h64 : i < 64
            · omega
            · rw [Nat.testBit_lt_two_pow (Nat.lt_of_lt_of_le hx (Nat.pow_le_pow_right (by omega) (by omega)))] at h
              exact absurd h (by simp)
          · simp [hi]
        rw [hm _ (by omega)] at h2
        omega
      left
      refine ⟨by omega, by omega, by omega, ?_⟩
      rw [put32_eq _ (by omega)]
      congr 3
      omega
    · right; left
      refine ⟨by omega, by omega, hn, ?_⟩
      rw [put64_eq _ (by omega)]
      rfl
  · right; right
    refine ⟨?_, ?_, hn, ?_⟩
    · have := BitVec.le_toInt s; simpa using this
    · have := BitVec.toInt_lt (x := s); simpa using this
    · rw [put32_eq _ (by omega), put64_beI]
      rw [beI, beI, hi]
      congr 6
      split <;> omega

theorem dataL_length (E : Env) (xs : List Val) : (dataL E xs).length = xs.length := by
  induction xs with
  | nil => rfl
  | cons x xs ih => simp [dataL, ih]

theorem dataM_length (E : Env) (xs : List (Bytes × Val)) : (dataM E xs).length = xs.length := by
  induction xs with
  | nil => rfl
  | cons x xs ih => obtain ⟨k, v⟩ := x; simp [dataM, ih]

mutual
theorem enc_sound (E : Env) : ∀ v : Val, Supported v → Enc (data E v) (enc E v [])
  | .nil, _ => by simp [data, enc, Enc]
  | .null, _ => by simp [data, enc, Enc]
  | .tru, _ => by simp [data, enc, Enc]
  | .fls, _ => by simp [data, enc, Enc]
  | .int _ c, _ => by
    simp only [data, enc, Enc]
    exact writeInt_fmt _ (by have := BitVec.le_toInt c; simpa using this)
      (by have := BitVec.toInt_lt (x := c); simpa using this)
  | .float c, _ => by simp [data, enc, Enc, put32_eq]
  | .double c, _ => by simp [data, enc, Enc, put64_eq]
  | .dateTime c, _ => by simp only [data, enc, Enc]; exact writeTime_fmt E c
  | .str s, h => by simp only [data, enc, Enc]; exact ⟨_, writeStr_hdr _ h, rfl⟩
  | .raw s, h => by simp only [data, enc, Enc]; exact ⟨_, writeStr_hdr _ h, rfl⟩
  | .bin _ s, h => by simp only [data, enc, Enc]; exact ⟨_, writeBin_hdr _ h, rfl⟩
  | .exbin _ b, h => by
    obtain ⟨t, p, rfl, ht, hp, hf⟩ := h
    simp only [data, enc, Enc]
    exact ⟨_, writeExt_hdr _ hp hf, ht, rfl⟩
  | .arr xs, h => by
    simp only [data, enc, Enc]
    rw [encElems_app]
    exact ⟨_, _, by rw [dataL_length]; exact writeArr_hdr _ h.1, encL_sound E xs h.2, rfl⟩
  | .obj _ kvs, h => by
    simp only [data, enc, Enc]
    rw [encMembers_app]
    exact ⟨_, _, by rw [dataM_length]; exact writeMap_hdr _ h.1, encM_sound E kvs h.2, rfl⟩
  | .nan, h => absurd h id
  | .inf, h => absurd h id
theorem encL_sound (E : Env) : ∀ xs : List Val, SupportedL xs → EncL (dataL E xs) (encElems E xs [])
  | [], _ => rfl
  | v :: vs, h => by
    simp only [dataL, encElems, EncL]
    rw [encElems_app]
    exact ⟨_, _, enc_sound E v h.1, encL_sound E vs h.2, rfl⟩
theorem encM_sound (E : Env) : ∀ kvs : List (Bytes × Val), SupportedM kvs →
    EncM (dataM E kvs) (encMembers E kvs [])
  | [], _ => rfl
  | (k, v) :: kvs, h => by
    simp only [dataM, encMembers, EncM]
    rw [encMembers_app, enc_app]
    exact ⟨_, _, _, writeStr_hdr _ h.1, enc_sound E v h.2.1, encM_sound E kvs h.2.2, rfl⟩
end

end Dxs.MsgPack
