import Verif.Bson.Wire

/-! # Where the BSON decoder panics

The inputs on which `NewValueFromBson` (bson_parse.go:257-270) panics, as a grammar: a document is read well up to an element whose fixed part, or whose length, goes beyond the bytes at hand (`hid`, the bytes behind the input up to the capacity of the slice, among them). -/

namespace Dxs.Bson.Spec

/-- The value of an element of type `ty` cannot be read from `u`: too few bytes, or a string of length 0 (the length counts the final zero). -/
inductive SimpleStuck (hid : Bytes) : UInt8 → Bytes → Prop
  | word (ty : UInt8) (u : Bytes) : ty ∈ [1, 9, 17, 18] → u.length + hid.length < 8 → SimpleStuck hid ty u
  | int32 (u : Bytes) : u.length + hid.length < 4 → SimpleStuck hid 16 u
  | oid (u : Bytes) : u.length + hid.length < 12 → SimpleStuck hid 7 u
  | dec (u : Bytes) : u.length + hid.length < 16 → SimpleStuck hid 19 u
  | bool : SimpleStuck hid 8 []
  | strLen (u : Bytes) : u.length + hid.length < 4 → SimpleStuck hid 2 u
  | str0 (u q : Bytes) : u ++ hid = le 4 0 ++ q → SimpleStuck hid 2 u
  | str (n : Nat) (u q : Bytes) : n < 2 ^ 32 → u ++ hid = le 4 n ++ q → q.length + 1 < n → SimpleStuck hid 2 u
  | binLen (u : Bytes) : u.length ≤ 4 → SimpleStuck hid 5 u
  | bin (n : Nat) (s : UInt8) (p : Bytes) : n < 2 ^ 32 → s ≠ 2 → p.length + hid.length < n → SimpleStuck hid 5 (le 4 n ++ s :: p)
  | bin2 (n : Nat) (p : Bytes) : n < 2 ^ 32 → p.length < 13 → SimpleStuck hid 5 (le 4 n ++ 2 :: p)

mutual
/-- A document in which the decoder gets stuck. -/
inductive DocStuck (E : Env) (hid : Bytes) : Bytes → Bool → List (Bytes × Val) → Prop
  | mk (n : Nat) (q : Bytes) (ku : Bool) (kvs : List (Bytes × Val)) : n < 2 ^ 32 → q ≠ [] → n ≤ q.length + 4 → BodyStuck E hid (n - 4) q ku kvs → DocStuck E hid (le 4 n ++ q) ku kvs
/-- Its elements: the first is stuck, or it is read and the rest is stuck. -/
inductive BodyStuck (E : Env) (hid : Bytes) : Nat → Bytes → Bool → List (Bytes × Val) → Prop
  | here (m : Nat) (ty : UInt8) (k u : Bytes) (ku : Bool) (kvs : List (Bytes × Val)) : m ≠ 0 → 0 ∉ k → ElemStuck E hid ty u (start ty (member E kvs k)) → BodyStuck E hid m (ty :: (k ++ 0 :: u)) ku kvs
  | later (m : Nat) (ty : UInt8) (k u : Bytes) (ku : Bool) (kvs : List (Bytes × Val)) (c : Nat) (w : Val) : m ≠ 0 → 0 ∉ k → Elem E hid ty u (start ty (member E kvs k)) c w →
      ¬ (m = k.length + 2 + c + 1 ∧ (u.drop c).head? = some 0) → BodyStuck E hid (m - (k.length + 2 + c)) (u.drop c) true (Assoc.put E.keyMatch kvs k w) → BodyStuck E hid m (ty :: (k ++ 0 :: u)) ku kvs
/-- The value of an element. -/
inductive ElemStuck (E : Env) (hid : Bytes) : UInt8 → Bytes → Val → Prop
  | simple (ty : UInt8) (u : Bytes) (cur : Val) : SimpleStuck hid ty u → ElemStuck E hid ty u cur
  | doc (u : Bytes) (ku : Bool) (kvs : List (Bytes × Val)) : DocStuck E hid u ku kvs → ElemStuck E hid 3 u (.obj ku kvs)
  | arrLen (u : Bytes) (xs : List Val) : u.length + hid.length < 4 → ElemStuck E hid 4 u (.arr xs)
  | arr (u : Bytes) (xs : List Val) (n : Nat) (q : Bytes) : n < 2 ^ 32 → u ++ hid = le 4 n ++ q → n ≤ u.length → ItemsStuck E hid (n - 4) (u.drop 4) xs → ElemStuck E hid 4 u (.arr xs)
/-- The elements of an array. -/
inductive ItemsStuck (E : Env) (hid : Bytes) : Nat → Bytes → List Val → Prop
  | here (m : Nat) (ty : UInt8) (k u : Bytes) (i : BitVec 64) (xs : List Val) : m ≠ 0 → 0 ∉ k → E.strToInt k = some i → i.toInt ≠ -1 → ElemStuck E hid ty u (start ty (slot xs i.toInt)) → ItemsStuck E hid m (ty :: (k ++ 0 :: u)) xs
  | later (m : Nat) (ty : UInt8) (k u : Bytes) (i : BitVec 64) (xs : List Val) (c : Nat) (w : Val) : m ≠ 0 → 0 ∉ k → E.strToInt k = some i → i.toInt ≠ -1 → Elem E hid ty u (start ty (slot xs i.toInt)) c w →
      ¬ (m = k.length + 2 + c + 1 ∧ (u.drop c).head? = some 0) → ItemsStuck E hid (m - (k.length + 2 + c)) (u.drop c) (store xs i.toInt w) → ItemsStuck E hid m (ty :: (k ++ 0 :: u)) xs
end

end Dxs.Bson.Spec
