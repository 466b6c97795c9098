import Verif.Props.MsgPackBack

/-! # C09, exactly: what the extensions come back as for which two headers are written -/

namespace Dxs.MsgPack
open Spec

/-- The lengths for which msgpack_value.go:169-190 writes two headers, with the first of them. -/
def fixCode (n : Nat) (c : UInt8) : Prop := (n = 1 ∧ c = 0xd4) ∨ (n = 2 ∧ c = 0xd5) ∨ (n = 4 ∧ c = 0xd6) ∨ (n = 8 ∧ c = 0xd7) ∨ (n = 16 ∧ c = 0xd8)

/-- **C09**, exactly, for the lengths where it is false: the extension comes back as one of the type 0xc7 (the second header) whose payload is the length, the type and the payload but for its last two bytes (for the length 1: the length alone); the two bytes are left over, before what follows. -/
theorem C09_fixext_exact (E : Env) (e ty c : UInt8) (p rest : Bytes) (hf : fixCode p.length c) :
    parse E (value2MsgPack E (.exbin e (ty :: p)) ++ rest) = .ok (.exbin 0 (0xc7 :: UInt8.ofNat p.length :: (ty :: p).take (p.length - 1)), (ty :: p).drop (p.length - 1) ++ rest) := by
  have hp : 1 ≤ p.length ∧ p.length ≤ 16 := by rcases hf with ⟨h, _⟩ | ⟨h, _⟩ | ⟨h, _⟩ | ⟨h, _⟩ | ⟨h, _⟩ <;> omega
  have hw : value2MsgPack E (.exbin e (ty :: p)) = c :: 0xc7 :: UInt8.ofNat p.length :: (ty :: p) := by
    simp only [value2MsgPack, enc, List.length_cons, Nat.add_sub_cancel]
    rcases hf with ⟨h, rfl⟩ | ⟨h, rfl⟩ | ⟨h, rfl⟩ | ⟨h, rfl⟩ | ⟨h, rfl⟩ <;> rw [h] <;> rfl
  have hl : (UInt8.ofNat p.length :: (ty :: p).take (p.length - 1)).length = p.length := by simp; omega
  have henc : Enc (.ext 0xc7 (UInt8.ofNat p.length :: (ty :: p).take (p.length - 1))) ([c] ++ 0xc7 :: (UInt8.ofNat p.length :: (ty :: p).take (p.length - 1))) := by
    refine ⟨[c], ?_, by decide, rfl⟩
    rw [hl]
    unfold ExtHdr
    rcases hf with ⟨h, rfl⟩ | ⟨h, rfl⟩ | ⟨h, rfl⟩ | ⟨h, rfl⟩ | ⟨h, rfl⟩ <;> simp [h]
  have := C138_reading E _ _ ((ty :: p).drop (p.length - 1) ++ rest) henc trivial
  rw [hw]
  refine Eq.trans (congrArg (parse E) ?_) this
  simp only [List.cons_append, List.nil_append]
  rw [← List.append_assoc, List.take_append_drop]
  rfl

/-- So alone such an extension comes back as it was exactly if it is already of that form; the simplest is type 0xc7 with the payload 1. -/
theorem C09_fixext_iff (E : Env) (e ty c : UInt8) (p : Bytes) (hf : fixCode p.length c) :
    newValueFromMsgPack E (value2MsgPack E (.exbin e (ty :: p))) = .ok (.exbin e (ty :: p)) ↔ e = 0 ∧ ty = 0xc7 ∧ p = UInt8.ofNat p.length :: (ty :: p).take (p.length - 1) := by
  have := C09_fixext_exact E e ty c p [] hf
  rw [List.append_nil, List.append_nil] at this
  unfold newValueFromMsgPack
  rw [this]
  simp only [Res.bind_ok, Res.ok.injEq, Val.exbin.injEq, List.cons.injEq]
  constructor
  · rintro ⟨h1, h2, h3⟩; exact ⟨h1.symm, h2.symm, h3.symm⟩
  · rintro ⟨h1, h2, h3⟩; exact ⟨h1.symm, h2.symm, h3.symm⟩

/-- The payload of the one extension of each of these lengths that comes back: the length and 0xc7 in turn. -/
def backPayload : Nat → Bytes
  | 1 => [1]
  | 2 => [2, 0xc7]
  | 4 => [4, 0xc7, 4, 0xc7]
  | 8 => [8, 0xc7, 8, 0xc7, 8, 0xc7, 8, 0xc7]
  | _ => [16, 0xc7, 16, 0xc7, 16, 0xc7, 16, 0xc7, 16, 0xc7, 16, 0xc7, 16, 0xc7, 16, 0xc7]

/-- So of all the extensions of these lengths exactly five come back as they were, one of each length. -/
theorem C09_fixext_five (E : Env) (e ty c : UInt8) (p : Bytes) (hf : fixCode p.length c) :
    newValueFromMsgPack E (value2MsgPack E (.exbin e (ty :: p))) = .ok (.exbin e (ty :: p)) ↔ e = 0 ∧ ty = 0xc7 ∧ p = backPayload p.length := by
  rw [C09_fixext_iff E e ty c p hf]
  refine and_congr_right fun _ => and_congr_right fun ht => ?_
  subst ht
  rcases hf with ⟨h, _⟩ | ⟨h, _⟩ | ⟨h, _⟩ | ⟨h, _⟩ | ⟨h, _⟩ <;> rw [h]
  · match p, h with
    | [a], _ => simp [backPayload]
  · match p, h with
    | [a, b], _ => simp [backPayload]
  · match p, h with
    | [a, b, c, d], _ => simp [backPayload]; rintro rfl rfl; constructor <;> (rintro ⟨rfl, rfl⟩; simp)
  · match p, h with
    | [a, b, c, d, e, f, g, i], _ => simp [backPayload]; rintro rfl rfl; constructor <;> (rintro ⟨rfl, rfl, rfl, rfl, rfl, rfl⟩; simp)
  · match p, h with
    | [a, b, c, d, e, f, g, i, j, k, l, m, n, o, q, r], _ =>
      simp [backPayload]; rintro rfl rfl; constructor <;> (rintro ⟨rfl, rfl, rfl, rfl, rfl, rfl, rfl, rfl, rfl, rfl, rfl, rfl, rfl, rfl⟩; simp)

example : fixCode [9, 8].length 0xd5 := by simp [fixCode]
example : parse envEx (value2MsgPack envEx (.exbin 0 [5, 9, 8])) = .ok (.exbin 0 [0xc7, 2, 5], [9, 8]) := by decide +kernel
example : newValueFromMsgPack envEx (value2MsgPack envEx (.exbin 0 [0xc7, 2, 0xc7])) = .ok (.exbin 0 [0xc7, 2, 0xc7]) := by decide +kernel

end Dxs.MsgPack
