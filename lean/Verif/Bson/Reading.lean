import Verif.Bson.Wire

/-! # What the package reads a BSON document as

A plain function on the documents of the specification (Bson/Spec.lean) that says what `NewValueFromBson` (bson_parse.go:257-270) makes of them, right or wrong. -/

namespace Dxs.Bson.Spec

mutual
/-- Well-formed documents this function speaks about: no empty document or array inside (the zero byte that ends it is taken for an element, C15), no binary of the old subtype 2 (C62). -/
def Solid : BElem → Prop
  | .doc kvs => kvs ≠ [] ∧ SolidM kvs
  | .arr xs => xs ≠ [] ∧ SolidL xs
  | .bin sub _ => sub ≠ 2
  | _ => True
def SolidM : List (Bytes × BElem) → Prop
  | [] => True
  | (_, e) :: kvs => Solid e ∧ SolidM kvs
def SolidL : List BElem → Prop
  | [] => True
  | e :: es => Solid e ∧ SolidL es
end

mutual
/-- What an element is read as where `old` was before (null where nothing was). The differences to the specification: a 32-bit integer is read without its sign, a binary gets its subtype as first byte, and a document or array is read into the one that is already there under the same name. -/
def reading (E : Env) : BElem → Val → Val
  | .double w, _ => .double w
  | .str s, _ => .str s
  | .doc kvs, old => .obj true (readingM E kvs (match old with | .obj _ m => m | _ => []))
  | .arr xs, old => .arr (readingL E 0 xs (match old with | .arr l => l | _ => []))
  | .bin sub b, _ => .bin 0 (sub :: b)
  | .oid b, _ => .bin 7 b
  | .bool b, _ => if b then .tru else .fls
  | .dateTime ms, _ => .dateTime (E.ofMilli (BitVec.ofInt 64 ms))
  | .null, _ => .null
  | .int32 n, _ => .int 0 (BitVec.ofInt 64 (n % 2 ^ 32))
  | .timestamp w, _ => .int 17 w
  | .int64 n, _ => .int 0 (BitVec.ofInt 64 n)
  | .dec128 b, _ => .bin 19 b
/-- Members one after the other: a new name at the end, a known one in its place. -/
def readingM (E : Env) : List (Bytes × BElem) → List (Bytes × Val) → List (Bytes × Val)
  | [], m => m
  | (k, e) :: r, m => readingM E r (Assoc.put E.keyMatch m k (reading E e ((member E m k).getD .null)))
/-- Elements from index `i` on. -/
def readingL (E : Env) : Nat → List BElem → List Val → List Val
  | _, [], l => l
  | i, e :: r, l => readingL E (i + 1) r (if i < l.length then l.set i (reading E e (l[i]?.getD .null)) else l ++ [reading E e .null])
end

mutual
/-- The values that BSON brings back as they were: no nil, NAN, INF, float32, unescaped text or extension value; no negative 32-bit integer; no type number but that of a timestamp; binaries only as ObjectID or Decimal128; times of whole milliseconds; names settled and distinct. -/
def Fixed (E : Env) : Val → Prop
  | .null | .tru | .fls | .double _ | .str _ => True
  | .int e c => e = 17 ∨ (e = 0 ∧ ¬ (-2 ^ 31 ≤ c.toInt ∧ c.toInt < 0))
  | .dateTime c => E.ofMilli (E.unixMilli c) = c
  | .bin e b => (e = 7 ∧ b.length ≤ 12) ∨ (e = 19 ∧ b.length ≤ 16)
  | .arr xs => FixedL E xs
  | .obj ku kvs => ku = true ∧ Assoc.Distinct E.keyMatch kvs ∧ FixedM E kvs
  | _ => False
def FixedL (E : Env) : List Val → Prop
  | [] => True
  | v :: vs => Fixed E v ∧ FixedL E vs
def FixedM (E : Env) : List (Bytes × Val) → Prop
  | [] => True
  | (_, v) :: kvs => Fixed E v ∧ FixedM E kvs
end

end Dxs.Bson.Spec
