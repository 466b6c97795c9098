import Verif.Env

/-!
# Value trees

`Val` is the tree denoted by a `*DxValue`: what the exported API can observe of it, plus the two pieces of
hidden state that influence later observations (whether the keys of an object are already unescaped, and
all 8 bytes of the scalar cell).
-/

namespace Dxs

/-- `ValueType`, dxvalue.go:14-31 (same order). -/
inductive VT where
  | object | array | string | rawString | int | float | double | dateTime
  | binary | exBinary | null | true | false | nan | inf
deriving DecidableEq, Repr

/-- The numeric value of the constant (dxvalue.go:15-31, `iota`). -/
def VT.ord : VT → Nat
  | .object => 0 | .array => 1 | .string => 2 | .rawString => 3 | .int => 4 | .float => 5
  | .double => 6 | .dateTime => 7 | .binary => 8 | .exBinary => 9 | .null => 10 | .true => 11
  | .false => 12 | .nan => 13 | .inf => 14

/-- The tree denoted by a `*DxValue` (struct at dxvalue.go:146-155). `nil` is the nil pointer.
`obj ku kvs`: `ku` is `fobject.keysUnescaped`, `kvs` is `fobject.strkvs`.
`cell` is `simpleV` read as a little-endian 64-bit word. `ext` is `ExtType`. -/
inductive Val where
  | nil
  | obj (ku : Bool) (kvs : List (Bytes × Val))
  | arr (xs : List Val)
  | str (s : Bytes)
  | raw (s : Bytes)
  | int (ext : UInt8) (cell : BitVec 64)
  | float (cell : BitVec 64)
  | double (cell : BitVec 64)
  | dateTime (cell : BitVec 64)
  | bin (ext : UInt8) (b : Bytes)
  | exbin (ext : UInt8) (b : Bytes)
  | null
  | tru
  | fls
  | nan
  | inf
deriving Repr

/-- `*(*float32)(unsafe.Pointer(&simpleV[0]))`: the low 4 bytes of the cell. -/
def lo32 (c : BitVec 64) : F32 := c.setWidth 32

/-- Writing a float32 to the low 4 bytes of the cell leaves the high 4 bytes (dxvalue.go:1018). -/
def setLo32 (c : BitVec 64) (f : F32) : BitVec 64 := (c.extractLsb' 32 32) ++ f

@[simp] theorem lo32_setLo32 (c : BitVec 64) (f : F32) : lo32 (setLo32 c f) = f := by
  apply BitVec.eq_of_getLsbD_eq
  intro i hi
  simp [lo32, setLo32, hi]
  rw [BitVec.getLsbD_append]
  simp [hi]

/-- A float stored into a zeroed node. -/
def Val.ofF32 (f : F32) : Val := .float (setLo32 0 f)

mutual
/-- Decidable equality of trees. -/
def Val.beq : Val → Val → Bool
  | .nil, .nil => Bool.true
  | .obj k xs, .obj k' ys => k == k' && Val.beqKV xs ys
  | .arr xs, .arr ys => Val.beqL xs ys
  | .str s, .str t => s == t
  | .raw s, .raw t => s == t
  | .int e c, .int e' c' => e == e' && c == c'
  | .float c, .float c' => c == c'
  | .double c, .double c' => c == c'
  | .dateTime c, .dateTime c' => c == c'
  | .bin e b, .bin e' b' => e == e' && b == b'
  | .exbin e b, .exbin e' b' => e == e' && b == b'
  | .null, .null => Bool.true
  | .tru, .tru => Bool.true
  | .fls, .fls => Bool.true
  | .nan, .nan => Bool.true
  | .inf, .inf => Bool.true
  | _, _ => Bool.false
def Val.beqL : List Val → List Val → Bool
  | [], [] => Bool.true
  | x :: xs, y :: ys => Val.beq x y && Val.beqL xs ys
  | _, _ => Bool.false
def Val.beqKV : List (Bytes × Val) → List (Bytes × Val) → Bool
  | [], [] => Bool.true
  | (k, x) :: xs, (k', y) :: ys => k == k' && Val.beq x y && Val.beqKV xs ys
  | _, _ => Bool.false
end

mutual
theorem Val.beq_iff : ∀ a b : Val, Val.beq a b = Bool.true ↔ a = b
  | .obj k xs, .obj k' ys => by simp [Val.beq, Val.beqKV_iff xs ys]
  | .arr xs, .arr ys => by simp [Val.beq, Val.beqL_iff xs ys]
  | .nil, b => by cases b <;> simp [Val.beq]
  | .str _, b => by cases b <;> simp [Val.beq]
  | .raw _, b => by cases b <;> simp [Val.beq]
  | .int _ _, b => by cases b <;> simp [Val.beq]
  | .float _, b => by cases b <;> simp [Val.beq]
  | .double _, b => by cases b <;> simp [Val.beq]
  | .dateTime _, b => by cases b <;> simp [Val.beq]
  | .bin _ _, b => by cases b <;> simp [Val.beq]
  | .exbin _ _, b => by cases b <;> simp [Val.beq]
  | .null, b => by cases b <;> simp [Val.beq]
  | .tru, b => by cases b <;> simp [Val.beq]
  | .fls, b => by cases b <;> simp [Val.beq]
  | .nan, b => by cases b <;> simp [Val.beq]
  | .inf, b => by cases b <;> simp [Val.beq]
  | .obj _ _, .nil | .obj _ _, .arr _ | .obj _ _, .str _ | .obj _ _, .raw _ | .obj _ _, .int _ _
  | .obj _ _, .float _ | .obj _ _, .double _ | .obj _ _, .dateTime _ | .obj _ _, .bin _ _
  | .obj _ _, .exbin _ _ | .obj _ _, .null | .obj _ _, .tru | .obj _ _, .fls | .obj _ _, .nan
  | .obj _ _, .inf => by simp [Val.beq]
  | .arr _, .nil | .arr _, .obj _ _ | .arr _, .str _ | .arr _, .raw _ | .arr _, .int _ _
  | .arr _, .float _ | .arr _, .double _ | .arr _, .dateTime _ | .arr _, .bin _ _
  | .arr _, .exbin _ _ | .arr _, .null | .arr _, .tru | .arr _, .fls | .arr _, .nan
  | .arr _, .inf => by simp [Val.beq]
theorem Val.beqL_iff : ∀ a b : List Val, Val.beqL a b = Bool.true ↔ a = b
  | [], [] => by simp [Val.beqL]
  | [], _ :: _ => by simp [Val.beqL]
  | _ :: _, [] => by simp [Val.beqL]
  | x :: xs, y :: ys => by simp [Val.beqL, Val.beq_iff x y, Val.beqL_iff xs ys]
theorem Val.beqKV_iff : ∀ a b : List (Bytes × Val), Val.beqKV a b = Bool.true ↔ a = b
  | [], [] => by simp [Val.beqKV]
  | [], _ :: _ => by simp [Val.beqKV]
  | _ :: _, [] => by simp [Val.beqKV]
  | (k, x) :: xs, (k', y) :: ys => by simp [Val.beqKV, Val.beq_iff x y, Val.beqKV_iff xs ys]
end

instance : DecidableEq Val := fun a b =>
  if h : Val.beq a b = Bool.true then isTrue ((Val.beq_iff a b).mp h)
  else isFalse (fun e => h ((Val.beq_iff a b).mpr e))

/-- `v.DataType` of a non-nil value. -/
def Val.vt : Val → VT
  | .nil => .null  -- never used: nil has no data type
  | .obj .. => .object | .arr _ => .array | .str _ => .string | .raw _ => .rawString
  | .int .. => .int | .float _ => .float | .double _ => .double | .dateTime _ => .dateTime
  | .bin .. => .binary | .exbin .. => .exBinary | .null => .null | .tru => .true | .fls => .false
  | .nan => .nan | .inf => .inf

/-! ## Members of an object

The members are pairs of a key and a `*DxValue`; `α` stands for the latter (a tree `Val` in the codecs, a pointer in the
heap model). -/

variable {α : Type}

/-- `UnEscapestrs` (dxvalue.go:135-144) on the member list. -/
def unescKeys (E : Env) (ku : Bool) (kvs : List (Bytes × α)) : List (Bytes × α) :=
  if ku then kvs else kvs.map (fun kv => (E.unesc kv.1, kv.2))

/-- First position whose key matches (the `for` loops in dxvalue.go:101-105, 109-113). -/
def findKey (E : Env) (kvs : List (Bytes × α)) (name : Bytes) : Option Nat :=
  kvs.findIdx? (fun kv => E.keyMatch kv.1 name)

/-- `indexByName` (dxvalue.go:99-115): the found index (`none` for -1) and the possibly rewritten object.
`92` is the byte `\`. -/
def indexByName (E : Env) (ku : Bool) (kvs : List (Bytes × α)) (name : Bytes) :
    Option Nat × Bool × List (Bytes × α) :=
  if !ku && !(name.contains 92) then
    match findKey E kvs name with
    | some i => (some i, ku, kvs)
    | none => (findKey E (unescKeys E ku kvs) name, Bool.true, unescKeys E ku kvs)
  else (findKey E (unescKeys E ku kvs) name, Bool.true, unescKeys E ku kvs)

/-- `SetKeyValue` (dxvalue.go:1159-1178) on a value that is an object. -/
def setKeyValueObj (E : Env) (ku : Bool) (kvs : List (Bytes × α)) (name : Bytes) (v : α) :
    Bool × List (Bytes × α) :=
  match indexByName E ku kvs name with
  | (some i, ku', kvs') => (ku', kvs'.modify i (fun kv => (kv.1, v)))
  | (none, ku', kvs') => (ku', kvs' ++ [(name, v)])

end Dxs
