import Verif.Props.Ends
import Verif.Props.Struct

/-!
# Facts that fix small definitions from outside

The theorems about larger parts hold for several values of these definitions; here they are compared with the source or used in a case where they matter.
-/

namespace Dxs

/-- The constants of dxvalue.go:15-31 in order. -/
def goConstants : List VT :=
  [.object, .array, .string, .rawString, .int, .float, .double, .dateTime, .binary, .exBinary, .null, .true, .false, .nan, .inf]

theorem VT.ord_iota (t : VT) : goConstants[t.ord]? = some t := by cases t <;> rfl

theorem VT.ord_inj {t u : VT} (h : t.ord = u.ord) : t = u := by
  have h1 := VT.ord_iota t
  rw [h, VT.ord_iota u] at h1
  exact (Option.some.inj h1).symm

/-- The blanks of dxvalue.go:282: `' '`, `'\r'`, `'\n'`, `'\t'`. -/
theorem Yaml.isWB_iff (c : UInt8) : Yaml.isWB c = true ↔ c ∈ ([32, 13, 10, 9] : Bytes) := by
  simp [Yaml.isWB, or_assoc]

/-- `skipWB` counts one blank less than it skips. -/
theorem Json.skipWB_count (bl : Bytes) (hb : ∀ c ∈ bl, Json.isWB c = true) (hne : bl ≠ []) (c : UInt8) (hc : Json.isWB c = false) (r : Bytes) :
    Json.skipWB (bl ++ c :: r) = (c :: r, bl.length - 1) := by
  have loop : ∀ (bl : Bytes) (i : Nat), (∀ c ∈ bl, Json.isWB c = true) → Json.skipLoop (bl ++ c :: r) i = (c :: r, i + bl.length - 1) := by
    intro bl
    induction bl with
    | nil => intro i _; simp [Json.skipLoop, hc]
    | cons a bl ih =>
      intro i h
      rw [List.cons_append, Json.skipLoop, if_pos (h a (by simp)), ih _ (fun c hc => h c (by simp [hc]))]
      simp only [List.length_cons]
      congr 1
      omega
  cases bl with
  | nil => exact absurd rfl hne
  | cons a bl =>
    have ha := hb a (by simp)
    have h20 : ¬ a > 0x20 := by
      simp only [Json.isWB, Bool.or_eq_true, beq_iff_eq] at ha
      rcases ha with ((rfl | rfl) | rfl) | rfl <;> decide
    rw [List.cons_append, Json.skipWB, if_neg h20, ha]
    rw [show (if (!true) = true then (a :: (bl ++ c :: r), 0) else Json.skipLoop (bl ++ c :: r) 1) = Json.skipLoop (bl ++ c :: r) 1 from rfl,
      loop bl 1 (fun c hc => hb c (by simp [hc]))]
    simp only [List.length_cons]
    congr 1
    omega

namespace Reflect

mutual
/-- A Go value without anything in it. -/
def Zeroed : GV → Prop
  | .str s => s.length = 0
  | .int _ x | .uint _ x => x.toNat = 0
  | .f32 x => x.toNat = 0
  | .f64 x => x.toNat = 0
  | .bool b => b ≠ true
  | .time x => x.isNone
  | .slice n xs => n + xs.length = 0
  | .struct fs => ZeroedL fs
  | .other => True
/-- The fields. -/
def ZeroedL : List GV → Prop
  | [] => True
  | g :: gs => Zeroed g ∧ ZeroedL gs
end

mutual
theorem zero_zeroed : ∀ t, Zeroed (zero t)
  | .str | .int _ | .uint _ | .f32 | .f64 | .bool | .time | .slice _ | .other => by simp [zero, Zeroed]
  | .struct fs => by simp only [zero, Zeroed]; exact zeros_zeroed fs
theorem zeros_zeroed : ∀ fs, ZeroedL (zeros fs)
  | [] => by simp [zeros, ZeroedL]
  | (_, t) :: fs => by simp only [zeros, ZeroedL]; exact ⟨zero_zeroed t, zeros_zeroed fs⟩
end

end Reflect

namespace Heap

/-- Only values that are constants are excluded. -/
theorem plainAt_iff (r : Res Val) : plainAt r = false ↔ ∃ v, r = .ok v ∧ isConst v = true := by
  cases r <;> simp [plainAt]

/-- Only copies of values with constants are excluded. -/
theorem plainCopy_iff (f : Nat) (r : Res Val) : plainCopy f r = false ↔ ∃ w, r = .ok w ∧ height w ≤ f ∧ noConst w = false := by
  cases r <;> simp [plainCopy]

/-- `[1].MergeWith([1, 2])` has two elements: arrays are among the merges that are covered. -/
example : prints [.run (.newMsgPack 0 [145, 1] false none), .run (.newMsgPack 1 [146, 1, 2] false none), .run (.merge 0 [] 1 [] none 4), .ask 0 [] (.here .count)] =
    .ok [.size 2] := by decide +kernel

end Heap

end Dxs
