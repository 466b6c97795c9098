import Verif.MsgPack.Model
import Verif.MsgPack.Spec

/-! Helper lemmas about the MessagePack decoder. -/

namespace Dxs.MsgPack
open Spec

theorem ofF32_eq (x : F32) : Val.ofF32 x = .float (x.setWidth 64) := by
  unfold Val.ofF32 setLo32
  congr 1
  apply BitVec.eq_of_toNat_eq
  rw [BitVec.toNat_append]
  simp
  omega

/-! ### reading fixed-width integers written big-endian -/

theorem u8_toNat (n : Nat) : (UInt8.ofNat n).toNat = n % 256 := by simp

theorem parseUint8_be (n : Nat) (h : n < 2 ^ 8) (r : Bytes) : parseUint8 (be 1 n ++ r) = .ok (n, r) := by
  simp [be, parseUint8]; omega

theorem parseUint16_be (n : Nat) (h : n < 2 ^ 16) (r : Bytes) :
    parseUint16 (be 2 n ++ r) = .ok (n, r) := by
  simp [be, parseUint16, be16_eq]; omega

theorem parseUint32_be (n : Nat) (h : n < 2 ^ 32) (r : Bytes) :
    parseUint32 (be 4 n ++ r) = .ok (n, r) := by
  simp [be, parseUint32, be32_eq]; omega

theorem parseUint64_be (n : Nat) (h : n < 2 ^ 64) (r : Bytes) :
    parseUint64 (be 8 n ++ r) = .ok (n, r) := by
  simp [be, parseUint64, be64_eq]; omega

theorem goUint32_be (n : Nat) (h : n < 2 ^ 32) (r : Bytes) : goUint32 (be 4 n ++ r) = .ok n := by
  simp [be, goUint32, be32_eq]; omega

theorem goUint64_be (n : Nat) (h : n < 2 ^ 64) (r : Bytes) : goUint64 (be 8 n ++ r) = .ok n := by
  simp [be, goUint64, be64_eq]; omega

theorem be_length (k n : Nat) : (be k n).length = k := by
  induction k with
  | zero => rfl
  | succ k ih => simp [be, ih]

theorem and_mask (c : UInt8) : (c &&& 0x1f).toNat = c.toNat % 32 := by
  simp [UInt8.toNat_and]
  exact Nat.and_two_pow_sub_one_eq_mod c.toNat 5

theorem and_mask4 (c : UInt8) : (c &&& 0x0f).toNat = c.toNat % 16 := by
  simp [UInt8.toNat_and]
  exact Nat.and_two_pow_sub_one_eq_mod c.toNat 4


/-! ### headers -/

theorem parseStr_of_len {c : UInt8} {b r s : Bytes} (h : parseLen c b = .ok (s.length, s ++ r)) :
    parseStr c b = .ok (s, r) := by
  simp only [parseStr, h, mapErr, Res.bind_ok]
  by_cases h0 : s.length = 0
  · have : s = [] := List.eq_nil_of_length_eq_zero h0
    subst this; simp
  · simp [h0]

theorem strHdr_dec {n : Nat} {hd : Bytes} (h : StrHdr n hd) :
    ∃ c h', hd = c :: h' ∧ isStr c = true ∧ ∀ r, parseLen c (h' ++ r) = .ok (n, r) := by
  rcases h with ⟨h1, rfl⟩ | ⟨h1, rfl⟩ | ⟨h1, rfl⟩ | ⟨h1, rfl⟩
  · refine ⟨_, _, rfl, ?_, ?_⟩
    · simp [isStr]; omega
    · intro r
      have e : isFixedStr (UInt8.ofNat (160 + n)) = true := by simp [isFixedStr]; omega
      simp [parseLen, e, -UInt8.ofNat_add, -UInt8.toNat_and, and_mask]; omega
  · exact ⟨_, _, rfl, rfl, fun r => by simp [parseLen, isFixedStr, parseUint8_be n h1]⟩
  · exact ⟨_, _, rfl, rfl, fun r => by simp [parseLen, isFixedStr, parseUint16_be n h1]⟩
  · exact ⟨_, _, rfl, rfl, fun r => by simp [parseLen, isFixedStr, parseUint32_be n h1]⟩

theorem binHdr_dec {n : Nat} {hd : Bytes} (h : BinHdr n hd) :
    ∃ c h', hd = c :: h' ∧ (c = 0xc4 ∨ c = 0xc5 ∨ c = 0xc6) ∧
      ∀ r, parseLen c (h' ++ r) = .ok (n, r) := by
  rcases h with ⟨h1, rfl⟩ | ⟨h1, rfl⟩ | ⟨h1, rfl⟩
  · exact ⟨_, _, rfl, by simp, fun r => by simp [parseLen, isFixedStr, parseUint8_be n h1]⟩
  · exact ⟨_, _, rfl, by simp, fun r => by simp [parseLen, isFixedStr, parseUint16_be n h1]⟩
  · exact ⟨_, _, rfl, by simp, fun r => by simp [parseLen, isFixedStr, parseUint32_be n h1]⟩

theorem arrHdr_dec {n : Nat} {hd : Bytes} (h : ArrHdr n hd) :
    ∃ c h', hd = c :: h' ∧ isStr c = false ∧ isArray c = true ∧
      ∀ r, parseArrLen c (h' ++ r) = .ok (n, r) := by
  rcases h with ⟨h1, rfl⟩ | ⟨h1, rfl⟩ | ⟨h1, rfl⟩
  · have e : (UInt8.ofNat (0x90 + n)).toNat = 0x90 + n := by simp [-UInt8.ofNat_add]; omega
    refine ⟨_, _, rfl, ?_, ?_, ?_⟩
    · simp [isStr, e, -UInt8.ofNat_add]; omega
    · simp [isArray, e, -UInt8.ofNat_add]; omega
    · intro r
      have : (decide (0x90 ≤ (UInt8.ofNat (0x90 + n)).toNat) && decide ((UInt8.ofNat (0x90 + n)).toNat ≤ 0x9f)) = true := by
        rw [e]; simp; omega
      unfold parseArrLen
      rw [if_pos this, and_mask4, e]; simp; omega
  · exact ⟨_, _, rfl, rfl, rfl, fun r => by simp [parseArrLen, parseUint16_be n h1]⟩
  · exact ⟨_, _, rfl, rfl, rfl, fun r => by simp [parseArrLen, parseUint32_be n h1]⟩

theorem mapHdr_dec {n : Nat} {hd : Bytes} (h : MapHdr n hd) :
    ∃ c h', hd = c :: h' ∧ isStr c = false ∧ isArray c = false ∧ isMap c = true ∧
      ∀ r, parseMapLen c (h' ++ r) = .ok (n, r) := by
  rcases h with ⟨h1, rfl⟩ | ⟨h1, rfl⟩ | ⟨h1, rfl⟩
  · have e : (UInt8.ofNat (0x80 + n)).toNat = 0x80 + n := by simp [-UInt8.ofNat_add]; omega
    refine ⟨_, _, rfl, ?_, ?_, ?_, ?_⟩
    · simp [isStr, e, -UInt8.ofNat_add]; omega
    · simp only [isArray, e]
      have a : UInt8.ofNat (0x80 + n) ≠ 0xdc := fun h => by
        have := congrArg UInt8.toNat h; rw [e] at this; simp at this; omega
      have b : UInt8.ofNat (0x80 + n) ≠ 0xdd := fun h => by
        have := congrArg UInt8.toNat h; rw [e] at this; simp at this; omega
      simp [a, b, -UInt8.ofNat_add]; omega
    · simp [isMap, e, -UInt8.ofNat_add]; omega
    · intro r
      have : (decide (0x80 ≤ (UInt8.ofNat (0x80 + n)).toNat) && decide ((UInt8.ofNat (0x80 + n)).toNat ≤ 0x8f)) = true := by
        rw [e]; simp; omega
      unfold parseMapLen
      rw [if_pos this, and_mask4, e]; simp; omega
  · exact ⟨_, _, rfl, rfl, rfl, rfl, fun r => by simp [parseMapLen, parseUint16_be n h1, mapErr]⟩
  · exact ⟨_, _, rfl, rfl, rfl, rfl, fun r => by simp [parseMapLen, parseUint32_be n h1, mapErr]⟩

theorem extHdr_dec {n : Nat} {hd : Bytes} (h : ExtHdr n hd) :
    ∃ c h', hd = c :: h' ∧ (c = 0xd4 ∨ c = 0xd5 ∨ c = 0xd6 ∨ c = 0xd7 ∨ c = 0xd8 ∨ c = 0xc7 ∨ c = 0xc8 ∨ c = 0xc9) ∧
      ∀ r, parseExtLen c (h' ++ r) = .ok (n, r) := by
  rcases h with ⟨rfl, rfl⟩ | ⟨rfl, rfl⟩ | ⟨rfl, rfl⟩ | ⟨rfl, rfl⟩ | ⟨rfl, rfl⟩ | ⟨h1, rfl⟩ | ⟨h1, rfl⟩ | ⟨h1, rfl⟩
  · exact ⟨_, _, rfl, by simp, fun r => by simp [parseExtLen]⟩
  · exact ⟨_, _, rfl, by simp, fun r => by simp [parseExtLen]⟩
  · exact ⟨_, _, rfl, by simp, fun r => by simp [parseExtLen]⟩
  · exact ⟨_, _, rfl, by simp, fun r => by simp [parseExtLen]⟩
  · exact ⟨_, _, rfl, by simp, fun r => by simp [parseExtLen]⟩
  · exact ⟨_, _, rfl, by simp, fun r => by simp [parseExtLen, parseUint8_be n h1]⟩
  · exact ⟨_, _, rfl, by simp, fun r => by simp [parseExtLen, parseUint16_be n h1]⟩
  · exact ⟨_, _, rfl, by simp, fun r => by simp [parseExtLen, parseUint32_be n h1]⟩

/-! ### dispatch -/

variable {E : Env} {f : Nat} {c : UInt8} {b : Bytes}

theorem pv_str (h : isStr c = true) :
    parseValue E (f + 1) (c :: b) = (parseStr c b >>= fun x => .ok (.str x.1, x.2)) := by
  simp [parseValue, readCode, h]

theorem pv_arr (h : isStr c = false) (h2 : isArray c = true) :
    parseValue E (f + 1) (c :: b) = parseArray (parseValue E f) c b := by
  simp [parseValue, readCode, h, h2]

theorem pv_map (h : isStr c = false) (h2 : isArray c = false) (h3 : isMap c = true) :
    parseValue E (f + 1) (c :: b) = parseObject E (parseValue E f) c b := by
  simp [parseValue, readCode, h, h2, h3]

theorem pv_fix (h : isFixedNum c = true) :
    parseValue E (f + 1) (c :: b) = .ok (.int 0 (sx8 c.toNat), b) := by
  have a1 : isStr c = false := by simp [isFixedNum, isStr] at *; omega
  have a2 : isArray c = false := by
    have x : c ≠ 0xdc := by rintro rfl; simp [isFixedNum] at h
    have y : c ≠ 0xdd := by rintro rfl; simp [isFixedNum] at h
    simp [isArray, x, y]; simp [isFixedNum] at h; omega
  have a3 : isMap c = false := by
    have x : c ≠ 0xde := by rintro rfl; simp [isFixedNum] at h
    have y : c ≠ 0xdf := by rintro rfl; simp [isFixedNum] at h
    simp [isMap, x, y]; simp [isFixedNum] at h; omega
  simp [parseValue, readCode, a1, a2, a3, h]

theorem pv_bin (h : c = 0xc4 ∨ c = 0xc5 ∨ c = 0xc6) :
    parseValue E (f + 1) (c :: b) = parseBin c b := by
  rcases h with rfl | rfl | rfl <;>
    simp [parseValue, readCode, isStr, isArray, isMap, isFixedNum, isBin]

theorem pv_ext (h : c = 0xd4 ∨ c = 0xd5 ∨ c = 0xd6 ∨ c = 0xd7 ∨ c = 0xd8 ∨ c = 0xc7 ∨ c = 0xc8 ∨ c = 0xc9) :
    parseValue E (f + 1) (c :: b) = parseExt E c b := by
  rcases h with rfl | rfl | rfl | rfl | rfl | rfl | rfl | rfl <;>
    simp [parseValue, readCode, isStr, isArray, isMap, isFixedNum, isBin, isExt]

end Dxs.MsgPack
