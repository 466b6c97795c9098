import Verif.Bson.Model
import Verif.Bson.Spec
import Verif.MsgPack.Encode

/-! The BSON encoder appends, frames, and (for writable values) emits the specified document. -/

namespace Dxs.Bson
open Spec

theorem le4_eq (n : Nat) : le 4 n = (MsgPack.Spec.be 4 n).reverse := by
  simp [le, MsgPack.Spec.be, Nat.div_div_eq_div_mul]
theorem le8_eq (n : Nat) : le 8 n = (MsgPack.Spec.be 8 n).reverse := by
  simp [le, MsgPack.Spec.be, Nat.div_div_eq_div_mul]

@[simp] theorem le_length (k n : Nat) : (le k n).length = k := by
  induction k generalizing n with
  | zero => rfl
  | succ k ih => simp [le, ih]

theorem putLE32_nat (n : Nat) : putLE32 n = le 4 n := by
  have h := MsgPack.put32_eq (n : Int) (by omega)
  rw [le4_eq]
  simp only [Int.toNat_natCast] at h
  rw [← h]; rfl
theorem putLE32_leI (n : Int) : putLE32 n = leI 4 n := by
  have h := MsgPack.put32_beI n
  simp only [leI]
  rw [le4_eq]
  have h2 : MsgPack.Spec.be 4 (n % 256 ^ 4).toNat = MsgPack.put32 n := by rw [h]; rfl
  rw [h2]; rfl
theorem putLE64_leI (n : Int) : putLE64 n = leI 8 n := by
  have h := MsgPack.put64_beI n
  simp only [leI]
  rw [le8_eq]
  have h2 : MsgPack.Spec.be 8 (n % 256 ^ 8).toNat = MsgPack.put64 n := by rw [h]; rfl
  rw [h2]; rfl
theorem leI8_toInt (c : BitVec 64) : leI 8 c.toInt = le 8 c.toNat := by
  simp only [leI]
  congr 1
  have := c.isLt
  rw [BitVec.toInt_eq_toNat_cond]
  split <;> omega

theorem closeDoc_frame (dst body : Bytes) :
    closeDoc dst.length (dst ++ [0, 0, 0, 0] ++ body) = dst ++ frame body := by
  have hl : ((dst ++ [0, 0, 0, 0] ++ body ++ [0]).length : Int) - (dst.length : Int) =
      ((body.length + 5 : Nat) : Int) := by simp; omega
  unfold closeDoc
  rw [hl, putLE32_nat]
  simp [MsgPack.overwrite, frame, le]

/-- `dst` followed by what was produced for an empty buffer. -/
def after (dst : Bytes) (r : Res Bytes) : Res Bytes := r >>= fun p => .ok (dst ++ p)

theorem obj_of_members (E : Env) (ku : Bool) (kvs : List (Bytes × Val))
    (h : ∀ dst, writeMembers E ku kvs dst = after dst (writeMembers E ku kvs [])) (dst : Bytes) :
    writeValue E (.obj ku kvs) dst = after dst (writeMembers E ku kvs [] >>= fun b => .ok (frame b)) := by
  simp only [writeValue]
  rw [h]
  cases writeMembers E ku kvs [] <;> simp [after]
  rw [← closeDoc_frame]; simp

theorem arr_of_elems (E : Env) (xs : List Val)
    (h : ∀ dst, writeElems E xs 0 dst = after dst (writeElems E xs 0 [])) (dst : Bytes) :
    writeValue E (.arr xs) dst = after dst (writeElems E xs 0 [] >>= fun b => .ok (frame b)) := by
  simp only [writeValue]
  rw [h]
  cases writeElems E xs 0 [] <;> simp [after]
  rw [← closeDoc_frame]; simp

mutual
theorem writeValue_app (E : Env) : ∀ (v : Val) (dst : Bytes),
    writeValue E v dst = after dst (writeValue E v [])
  | .obj ku kvs, dst => by
    have h := writeMembers_app E ku kvs
    rw [obj_of_members E ku kvs h dst, obj_of_members E ku kvs h []]
    cases writeMembers E ku kvs [] <;> simp [after]
  | .arr xs, dst => by
    have h := fun dst => writeElems_app E xs 0 dst
    rw [arr_of_elems E xs h dst, arr_of_elems E xs h []]
    cases writeElems E xs 0 [] <;> simp [after]
  | .nil, dst | .str _, dst | .raw _, dst | .int _ _, dst | .float _, dst | .double _, dst
  | .dateTime _, dst | .bin _ _, dst | .exbin _ _, dst | .null, dst | .tru, dst | .fls, dst
  | .nan, dst | .inf, dst => by
    simp only [writeValue]
    cases simpleValue E _ <;> simp [after]
theorem writeMembers_app (E : Env) (ku : Bool) : ∀ (kvs : List (Bytes × Val)) (dst : Bytes),
    writeMembers E ku kvs dst = after dst (writeMembers E ku kvs [])
  | [], dst => by simp [writeMembers, after]
  | (k, v) :: kvs, dst => by
    simp only [writeMembers]
    rw [writeValue_app E v (dst ++ _ ++ _ ++ _), writeValue_app E v ([] ++ _ ++ _ ++ _)]
    cases writeValue E v [] with
    | ok p =>
      simp only [Res.bind_ok, after]
      rw [writeMembers_app E ku kvs (dst ++ _ ++ _ ++ _ ++ _),
        writeMembers_app E ku kvs ([] ++ _ ++ _ ++ _ ++ _)]
      cases writeMembers E ku kvs [] <;> simp [after]
    | err _ => rfl
    | panic => rfl
    | loop => rfl
theorem writeElems_app (E : Env) : ∀ (xs : List Val) (i : Nat) (dst : Bytes),
    writeElems E xs i dst = after dst (writeElems E xs i [])
  | [], i, dst => by simp [writeElems, after]
  | v :: vs, i, dst => by
    simp only [writeElems]
    rw [writeValue_app E v (dst ++ _ ++ _ ++ _), writeValue_app E v ([] ++ _ ++ _ ++ _)]
    cases writeValue E v [] with
    | ok p =>
      simp only [Res.bind_ok, after]
      rw [writeElems_app E vs (i + 1) (dst ++ _ ++ _ ++ _ ++ _),
        writeElems_app E vs (i + 1) ([] ++ _ ++ _ ++ _ ++ _)]
      cases writeElems E vs (i + 1) [] <;> simp [after]
    | err _ => rfl
    | panic => rfl
    | loop => rfl
end

theorem writeObj_frame (E : Env) (ku : Bool) (kvs : List (Bytes × Val)) (dst : Bytes) :
    writeValue E (.obj ku kvs) dst = after dst (writeMembers E ku kvs [] >>= fun b => .ok (frame b)) :=
  obj_of_members E ku kvs (writeMembers_app E ku kvs) dst

theorem writeArr_frame (E : Env) (xs : List Val) (dst : Bytes) :
    writeValue E (.arr xs) dst = after dst (writeElems E xs 0 [] >>= fun b => .ok (frame b)) :=
  arr_of_elems E xs (writeElems_app E xs 0) dst

theorem elementType_eq (E : Env) (v : Val) (h : Writable v) : elementType v = [ty (data E v)] := by
  cases v with
  | int ext c =>
    simp only [elementType, data]
    by_cases he : ext = 17
    · simp [he, ty]
    · have h1 : ¬ (c.toInt < -2147483648 ∨ c.toInt > 2147483647) ↔ (-2 ^ 31 ≤ c.toInt ∧ c.toInt < 2 ^ 31) := by
        omega
      by_cases h2 : (-2 ^ 31 ≤ c.toInt ∧ c.toInt < 2 ^ 31)
      · have h3 := h1.mpr h2
        simp only [beq_iff_eq, he, if_false, h3, h2, and_self, if_true, ty]
      · have h3 : (c.toInt < -2147483648 ∨ c.toInt > 2147483647) := by omega
        simp only [beq_iff_eq, he, if_false, h3, h2, if_true, ty]
  | bin ext b =>
    rcases h with rfl | rfl | ⟨rfl, _⟩ | ⟨rfl, _⟩ <;> simp [elementType, data, ty]
  | exbin ext b =>
    rcases h with rfl | ⟨rfl, _⟩ <;> simp [elementType, data, ty]
  | nan => exact h.elim
  | inf => exact h.elim
  | _ => rfl

mutual
theorem writeValue_ok (E : Env) : ∀ v : Val, Writable v → writeValue E v [] = .ok (payload (data E v))
  | .obj ku kvs, h => by
    rw [writeObj_frame, writeMembers_ok E ku kvs h]
    simp [data, payload, after]
  | .arr xs, h => by
    rw [writeArr_frame, writeElems_ok E xs 0 h]
    simp [data, payload, after]
  | .int ext c, _ => by
    simp only [writeValue, simpleValue, data]
    by_cases he : ext = 17
    · simp [he, payload, putLE64_leI, leI8_toInt]
    · by_cases h2 : (-2 ^ 31 ≤ c.toInt ∧ c.toInt < 2 ^ 31)
      · have h3 : ¬ (c.toInt < -2147483648 ∨ c.toInt > 2147483647) := by omega
        simp only [beq_iff_eq, he, if_false, h3, h2, and_self, if_true, payload, putLE32_leI]
        rfl
      · have h3 : (c.toInt < -2147483648 ∨ c.toInt > 2147483647) := by omega
        simp only [beq_iff_eq, he, if_false, h3, h2, if_true, payload, putLE64_leI]
        rfl
  | .bin ext b, h => by
    rcases h with rfl | rfl | ⟨rfl, h⟩ | ⟨rfl, h⟩ <;>
      simp [writeValue, simpleValue, data, payload, putLE32_nat, binTo, *]
  | .exbin ext b, h => by
    rcases h with rfl | ⟨rfl, h⟩
    · simp [writeValue, simpleValue, data, payload, putLE32_nat]
    · cases b with
      | nil => exact absurd rfl h
      | cons x xs =>
        simp [writeValue, simpleValue, data, payload, putLE32_nat]
  | .str s, _ => by
    have : ((s.length : Int) + 1) = ((s.length + 1 : Nat) : Int) := by omega
    simp only [writeValue, simpleValue, data, payload, this, putLE32_nat]
    simp
  | .raw s, _ => by
    have : (((E.unesc s).length : Int) + 1) = (((E.unesc s).length + 1 : Nat) : Int) := by omega
    simp only [writeValue, simpleValue, data, payload, this, putLE32_nat]
    simp
  | .float c, _ => by simp [writeValue, simpleValue, data, payload, putLE64_leI, leI8_toInt]
  | .double c, _ => by simp [writeValue, simpleValue, data, payload, putLE64_leI, leI8_toInt]
  | .dateTime c, _ => by simp [writeValue, simpleValue, data, payload, putLE64_leI]
  | .nil, _ | .null, _ | .tru, _ | .fls, _ => by simp [writeValue, simpleValue, data, payload]
  | .nan, h => h.elim
  | .inf, h => h.elim
theorem writeMembers_ok (E : Env) (ku : Bool) : ∀ kvs : List (Bytes × Val), WritableM kvs →
    writeMembers E ku kvs [] = .ok (members (dataM E ku kvs))
  | [], _ => rfl
  | (k, v) :: kvs, h => by
    simp only [writeMembers]
    rw [writeValue_app, writeValue_ok E v h.1, elementType_eq E v h.1]
    simp only [Res.bind_ok, after]
    rw [writeMembers_app, writeMembers_ok E ku kvs h.2]
    simp [dataM, members, after]
theorem writeElems_ok (E : Env) : ∀ (xs : List Val) (i : Nat), WritableL xs →
    writeElems E xs i [] = .ok (elems i (dataL E xs))
  | [], _, _ => rfl
  | v :: vs, i, h => by
    simp only [writeElems]
    rw [writeValue_app, writeValue_ok E v h.1, elementType_eq E v h.1]
    simp only [Res.bind_ok, after]
    rw [writeElems_app, writeElems_ok E vs (i + 1) h.2]
    simp [dataL, elems, after]
end

end Dxs.Bson
