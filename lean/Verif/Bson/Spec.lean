import Verif.Assoc

/-!
# BSON specification (independent of the model)

Transcribed from https://bsonspec.org/spec.html, version 1.1, restricted to the element types the package
has a case for. BSON has exactly one serialisation of a document, so the specification is a function.
-/

namespace Dxs.Bson

/-- An element value. -/
inductive BElem where
  | double (bits : BitVec 64)
  | str (s : Bytes)
  | doc (kvs : List (Bytes × BElem))
  | arr (xs : List BElem)
  | bin (sub : UInt8) (b : Bytes)
  | oid (b : Bytes)
  | bool (b : Bool)
  | dateTime (ms : Int)
  | null
  | int32 (n : Int)
  | timestamp (w : BitVec 64)
  | int64 (n : Int)
  | dec128 (b : Bytes)

namespace Spec

/-- The `k` low-order bytes of `n`, least significant first. -/
def le : Nat → Nat → Bytes
  | 0, _ => []
  | k + 1, n => UInt8.ofNat n :: le k (n / 256)

/-- Little-endian two's complement. -/
def leI (k : Nat) (n : Int) : Bytes := le k (n % (256 ^ k : Int)).toNat

/-- Element type bytes. -/
def ty : BElem → UInt8
  | .double _ => 0x01 | .str _ => 0x02 | .doc _ => 0x03 | .arr _ => 0x04 | .bin _ _ => 0x05
  | .oid _ => 0x07 | .bool _ => 0x08 | .dateTime _ => 0x09 | .null => 0x0a | .int32 _ => 0x10
  | .timestamp _ => 0x11 | .int64 _ => 0x12 | .dec128 _ => 0x13

/-- `document ::= int32 e_list "\x00"`; the int32 is the total number of bytes. -/
def frame (body : Bytes) : Bytes := le 4 (body.length + 5) ++ body ++ [0]

mutual
/-- The bytes after the element's name. -/
def payload : BElem → Bytes
  | .double w => le 8 w.toNat
  | .str s => le 4 (s.length + 1) ++ s ++ [0]
  | .doc kvs => frame (members kvs)
  | .arr xs => frame (elems 0 xs)
  | .bin sub b => le 4 b.length ++ sub :: b
  | .oid b => b
  | .bool b => [if b then 1 else 0]
  | .dateTime ms => leI 8 ms
  | .null => []
  | .int32 n => leI 4 n
  | .timestamp w => le 8 w.toNat
  | .int64 n => leI 8 n
  | .dec128 b => b
/-- `e_list`: type, name as cstring, value. -/
def members : List (Bytes × BElem) → Bytes
  | [] => []
  | (k, e) :: kvs => ty e :: k ++ 0 :: payload e ++ members kvs
/-- "Array - the document for an array is a normal BSON document with integer values for the keys,
starting with 0 and continuing sequentially". -/
def elems : Nat → List BElem → Bytes
  | _, [] => []
  | i, e :: es => ty e :: decNat i ++ 0 :: payload e ++ elems (i + 1) es
end

/-- A BSON document. -/
def document (kvs : List (Bytes × BElem)) : Bytes := frame (members kvs)

mutual
/-- Side conditions of the grammar: names contain no NUL, fixed lengths, ranges; all lengths fit in the
positive int32 range. -/
def WF : BElem → Prop
  | .str s => s.length + 1 < 2 ^ 31
  | .doc kvs => (members kvs).length + 5 < 2 ^ 31 ∧ WFM kvs
  | .arr xs => (elems 0 xs).length + 5 < 2 ^ 31 ∧ WFL xs
  | .bin _ b => b.length < 2 ^ 31
  | .oid b => b.length = 12
  | .dateTime ms => -2 ^ 63 ≤ ms ∧ ms < 2 ^ 63
  | .int32 n => -2 ^ 31 ≤ n ∧ n < 2 ^ 31
  | .int64 n => -2 ^ 63 ≤ n ∧ n < 2 ^ 63
  | .dec128 b => b.length = 16
  | _ => True
def WFM : List (Bytes × BElem) → Prop
  | [] => True
  | (k, e) :: kvs => (0 : UInt8) ∉ k ∧ WF e ∧ WFM kvs
def WFL : List BElem → Prop
  | [] => True
  | e :: es => WF e ∧ WFL es
end

end Spec

mutual
/-- `v` is the value an element stands for. Strings, doubles, booleans, null, times and integers are
themselves; ObjectIDs, decimals and timestamps are kept as tagged binaries/integers (as the package does);
a generic binary is a binary with the same bytes. The names in an object count as unescaped. A name that occurs more than once keeps its first position
and gets its last value. -/
def Denotes (E : Env) : BElem → Val → Prop
  | .double w, v => v = .double w
  | .str s, v => v = .str s
  | .doc kvs, v => ∃ vs, v = .obj true (Assoc.lastWins E.keyMatch vs) ∧ DenotesM E kvs vs
  | .arr xs, v => ∃ vs, v = .arr vs ∧ DenotesL E xs vs
  | .bin sub b, v => sub = 0 ∧ v = .bin 0 b
  | .oid b, v => v = .bin 7 b
  | .bool b, v => v = if b then .tru else .fls
  | .dateTime ms, v => v = .dateTime (E.ofMilli (BitVec.ofInt 64 ms))
  | .null, v => v = .null
  | .int32 n, v => ∃ c : BitVec 64, v = .int 0 c ∧ c.toInt = n
  | .timestamp w, v => v = .int 17 w
  | .int64 n, v => ∃ c : BitVec 64, v = .int 0 c ∧ c.toInt = n
  | .dec128 b, v => v = .bin 19 b
def DenotesM (E : Env) : List (Bytes × BElem) → List (Bytes × Val) → Prop
  | [], vs => vs = []
  | (k, e) :: kvs, vs => ∃ v vs', vs = (k, v) :: vs' ∧ Denotes E e v ∧ DenotesM E kvs vs'
def DenotesL (E : Env) : List BElem → List Val → Prop
  | [], vs => vs = []
  | e :: es, vs => ∃ v vs', vs = v :: vs' ∧ Denotes E e v ∧ DenotesL E es vs'
end

/-- Documents and arrays. -/
def isContainer : BElem → Bool
  | .doc _ => true
  | .arr _ => true
  | _ => false

mutual
/-- The part of BSON the package reads correctly: containers are not empty, 32-bit integers are not
negative, no binaries (see C14, C15, C16 for what happens otherwise); a repeated name does not carry a
container (see C63). -/
def Readable (E : Env) : BElem → Prop
  | .doc kvs => kvs ≠ [] ∧
      kvs.Pairwise (fun a b => isContainer b.2 = true → E.keyMatch a.1 b.1 = false) ∧ ReadableM E kvs
  | .arr xs => xs ≠ [] ∧ ReadableL E xs
  | .int32 n => 0 ≤ n
  | .bin _ _ => False
  | _ => True
def ReadableM (E : Env) : List (Bytes × BElem) → Prop
  | [] => True
  | (_, e) :: kvs => Readable E e ∧ ReadableM E kvs
def ReadableL (E : Env) : List BElem → Prop
  | [] => True
  | e :: es => Readable E e ∧ ReadableL E es
end

mutual
/-- The element a value is written as. -/
def data (E : Env) : Val → BElem
  | .nil => .null
  | .null => .null
  | .tru => .bool true
  | .fls => .bool false
  | .int ext c =>
    if ext = 0x11 then .timestamp c
    else if -2 ^ 31 ≤ c.toInt ∧ c.toInt < 2 ^ 31 then .int32 c.toInt else .int64 c.toInt
  | .float c => .double c
  | .double c => .double c
  | .dateTime c => .dateTime (E.unixMilli c).toInt
  | .str s => .str s
  | .raw s => .str (E.unesc s)
  | .bin ext b =>
    if ext = 0x07 then .oid (b.take 12) else if ext = 0x13 then .dec128 (b.take 16) else .bin 0 b
  | .exbin ext b => if ext = 0x05 then .bin (b.headD 0) b.tail else .bin 0 b
  | .arr xs => .arr (dataL E xs)
  | .obj ku kvs => .doc (dataM E ku kvs)
  | .nan => .null
  | .inf => .null
def dataL (E : Env) : List Val → List BElem
  | [] => []
  | v :: vs => data E v :: dataL E vs
def dataM (E : Env) (ku : Bool) : List (Bytes × Val) → List (Bytes × BElem)
  | [] => []
  | (k, v) :: kvs => (if ku then k else E.unesc k, data E v) :: dataM E ku kvs
end

mutual
/-- The values that have a BSON serialisation: no NAN/INF; binaries are generic or a full ObjectID or
Decimal128; extension values are untyped (written as generic binaries) or carry a BSON subtype. -/
def Writable : Val → Prop
  | .nan => False
  | .inf => False
  | .bin ext b => ext = 0 ∨ ext = 5 ∨ (ext = 7 ∧ 12 ≤ b.length) ∨ (ext = 0x13 ∧ 16 ≤ b.length)
  | .exbin ext b => ext = 0 ∨ (ext = 5 ∧ b ≠ [])
  | .arr xs => WritableL xs
  | .obj _ kvs => WritableM kvs
  | _ => True
def WritableL : List Val → Prop
  | [] => True
  | v :: vs => Writable v ∧ WritableL vs
def WritableM : List (Bytes × Val) → Prop
  | [] => True
  | (_, v) :: kvs => Writable v ∧ WritableM kvs
end

mutual
/-- `w` is the value `v` after a round trip: as `v`, except that nil is null, raw strings and keys are
unescaped, and times go through milliseconds. -/
def Same (E : Env) : Val → Val → Prop
  | .nil, w => w = .null
  | .null, w => w = .null
  | .tru, w => w = .tru
  | .fls, w => w = .fls
  | .int ext c, w => w = .int (if ext = 17 then 17 else 0) c
  | .double c, w => w = .double c
  | .dateTime c, w => w = .dateTime (E.ofMilli (E.unixMilli c))
  | .str s, w => w = .str s
  | .raw s, w => w = .str (E.unesc s)
  | .bin ext b, w => w = .bin ext b
  | .arr xs, w => ∃ ys, w = .arr ys ∧ SameL E xs ys
  | .obj ku kvs, w => ∃ ys, w = .obj true ys ∧ SameM E ku kvs ys
  | _, _ => False
def SameL (E : Env) : List Val → List Val → Prop
  | [], ys => ys = []
  | v :: vs, ys => ∃ w ws, ys = w :: ws ∧ Same E v w ∧ SameL E vs ws
def SameM (E : Env) (ku : Bool) : List (Bytes × Val) → List (Bytes × Val) → Prop
  | [], ys => ys = []
  | (k, v) :: kvs, ys =>
    ∃ w ws, ys = (if ku then k else E.unesc k, w) :: ws ∧ Same E v w ∧ SameM E ku kvs ws
end

mutual
/-- The values that survive a BSON round trip. -/
def Survives (E : Env) : Val → Prop
  | .nil | .null | .tru | .fls | .double _ | .dateTime _ | .str _ | .raw _ => True
  | .int ext c => ext = 17 ∨ 0 ≤ c.toInt ∨ c.toInt < -2 ^ 31
  | .bin ext b => (ext = 7 ∧ b.length = 12) ∨ (ext = 19 ∧ b.length = 16)
  | .arr xs => xs ≠ [] ∧ SurvivesL E xs
  | .obj ku kvs => kvs ≠ [] ∧
      ((unescKeys E ku kvs).map Prod.fst).Pairwise (fun a b => E.keyMatch a b = false) ∧ SurvivesM E ku kvs
  | _ => False
def SurvivesL (E : Env) : List Val → Prop
  | [] => True
  | v :: vs => Survives E v ∧ SurvivesL E vs
def SurvivesM (E : Env) (ku : Bool) : List (Bytes × Val) → Prop
  | [] => True
  | (k, v) :: kvs => (0 : UInt8) ∉ (if ku then k else E.unesc k) ∧ Survives E v ∧ SurvivesM E ku kvs
end

end Dxs.Bson
