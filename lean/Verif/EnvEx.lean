import Verif.Env

/-!
# A concrete environment

Used to show that hypotheses about `Env` are satisfiable, and for counterexamples.
-/

namespace Dxs

/-- Unescape only `\uXXXX`-free, two-byte escapes `\"`, `\\`, `\/`: enough for the examples. -/
def exUnesc : Bytes → Bytes
  | 92 :: 110 :: r => 10 :: exUnesc r
  | 92 :: c :: r => c :: exUnesc r
  | c :: r => c :: exUnesc r
  | [] => []

/-- Escape `"` , `\` and newline. -/
def exEsc : Bytes → Bytes
  | 34 :: r => 92 :: 34 :: exEsc r
  | 92 :: r => 92 :: 92 :: exEsc r
  | 10 :: r => 92 :: 110 :: exEsc r
  | c :: r => c :: exEsc r
  | [] => []

/-- Value of a run of decimal digits, none if another byte occurs. -/
def exDigits : Nat → Bytes → Option Nat
  | acc, [] => some acc
  | acc, c :: r => if 48 ≤ c.toNat ∧ c.toNat ≤ 57 then exDigits (acc * 10 + (c.toNat - 48)) r else none

/-- Decimal integers. -/
def exInt : Bytes → Option (BitVec 64)
  | [] => none
  | 45 :: [] => none
  | 45 :: r => (exDigits 0 r).map (fun n => - BitVec.ofNat 64 n)
  | r => (exDigits 0 r).map (fun n => BitVec.ofNat 64 n)

/-- Lower-case an ASCII letter. -/
def lower (c : UInt8) : UInt8 := if 65 ≤ c.toNat ∧ c.toNat ≤ 90 then c + 32 else c

/-- A simple environment: ASCII case folding, decimal integers, floats and times as opaque words. -/
def envEx : Env where
  ignoreCase := false
  equalFold a b := a.map lower == b.map lower
  unesc := exUnesc
  esc _ := exEsc
  strToInt := exInt
  strToFloat _ := none
  parseFloat _ := none
  jsonTime _ := none
  fmtFloat _ := [48]
  f32to64 x := x.setWidth 64
  f64to32 x := x.setWidth 32
  i64to64 x := x
  f64toI x := x
  i64to32 x := x.setWidth 32
  f32toI x := x.setWidth 64
  f64eq a b := a == b
  bin2Hex b := b
  unixSec x := x >>> 30
  unixNano x := ⟨x.toNat % 2 ^ 30 % 1000000000, Nat.mod_lt _ (by decide)⟩
  ofUnix s n := (s <<< 30) ||| BitVec.ofNat 64 n
  fmtTime _ := [48]
  unixMilli x := x
  ofMilli x := x

/-! ## Facts about the example environment -/

theorem exDigits_append (a b : Bytes) (acc n : Nat) (h : exDigits acc a = some n) :
    exDigits acc (a ++ b) = exDigits n b := by
  induction a generalizing acc with
  | nil => simp [exDigits] at h; subst h; rfl
  | cons c r ih =>
    simp only [exDigits, List.cons_append] at h ⊢
    split
    · rename_i hc; rw [if_pos hc] at h; exact ih _ h
    · rename_i hc; rw [if_neg hc] at h; cases h

theorem exDigits_dec (f n : Nat) (h : n < f) : exDigits 0 (digitsAux f n) = some n := by
  induction f generalizing n with
  | zero => omega
  | succ f ih =>
    rw [digitsAux]
    have hd : ∀ k acc : Nat, k < 10 → exDigits acc [byteN (48 + k)] = some (acc * 10 + k) := by
      intro k acc hk
      have : (byteN (48 + k)).toNat = 48 + k := by simp [byteN]; omega
      simp only [exDigits, this]
      rw [if_pos (by omega)]
      congr 1; omega
    split
    · rename_i h; rw [hd n 0 h]; simp
    · rename_i h10
      rw [exDigits_append _ _ _ _ (ih (n / 10) (by omega)), hd _ _ (by omega)]
      congr 1; omega

theorem digitsAux_head (f n : Nat) (h : n < f) : ∃ c r, digitsAux f n = c :: r ∧ 48 ≤ c.toNat ∧ c.toNat ≤ 57 := by
  induction f generalizing n with
  | zero => omega
  | succ f ih =>
    rw [digitsAux]
    split
    · rename_i h
      refine ⟨_, _, rfl, ?_⟩
      have : (byteN (48 + n)).toNat = 48 + n := by simp [byteN]; omega
      omega
    · rename_i h10
      obtain ⟨c, r, e, hc⟩ := ih (n / 10) (by omega)
      exact ⟨c, r ++ [byteN (48 + n % 10)], by rw [e]; rfl, hc⟩

/-- `exInt` reads decimal integers. -/
theorem exInt_decInt (c : BitVec 64) : exInt (decInt c.toInt) = some c := by
  unfold decInt
  obtain ⟨a, r, e, hc1, hc2⟩ := digitsAux_head (c.toInt.natAbs + 1) c.toInt.natAbs (by omega)
  have hd := exDigits_dec (c.toInt.natAbs + 1) c.toInt.natAbs (by omega)
  split
  · rename_i hneg
    unfold decNat
    rw [e] at hd ⊢
    simp only [exInt, hd, Option.map_some, Option.some.injEq]
    have : -((c.toInt.natAbs : Nat) : Int) = c.toInt := by omega
    rw [← BitVec.ofInt_natCast, ← BitVec.ofInt_neg, this, BitVec.ofInt_toInt]
  · rename_i hneg
    unfold decNat
    rw [e] at hd ⊢
    unfold exInt
    split
    · rename_i h; cases h
    · rename_i h; cases h; simp at hc1
    · rename_i h; cases h; simp at hc1
    · rw [hd]
      simp only [Option.map_some, Option.some.injEq]
      have : ((c.toInt.natAbs : Nat) : Int) = c.toInt := by omega
      rw [← BitVec.ofInt_natCast, this, BitVec.ofInt_toInt]

end Dxs
