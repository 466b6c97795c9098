import Verif.Bson.Spec

/-! # The language of the BSON decoder

What `NewValueFromBson` (bson_parse.go:257-270) accepts, and as which value, written as a grammar. The bytes behind the input (`hid`, up to the capacity of the slice) belong to what is read. -/

namespace Dxs.Bson.Spec

/-- What is at a place of a document before its value is read: an object is read into the object that is there, an array into the array that is there. -/
def start (ty : UInt8) (old : Option Val) : Val :=
  if ty = 3 then (match old with | some (.obj ku kvs) => .obj ku kvs | _ => .obj false [])
  else if ty = 4 then (match old with | some (.arr xs) => .arr xs | _ => .arr [])
  else .null

/-- The member of this name, if there is one. -/
def member (E : Env) (kvs : List (Bytes × Val)) (k : Bytes) : Option Val := (kvs.find? (fun kv => E.keyMatch kv.1 k)).map Prod.snd

/-- The element of this index, if there is one. -/
def slot (xs : List Val) (i : Int) : Option Val := if 0 ≤ i then xs[i.toNat]? else none

/-- A value stored under an index: in its place, or at the end when there is no such place. -/
def store (xs : List Val) (i : Int) (w : Val) : List Val := if 0 ≤ i ∧ i.toNat < xs.length then xs.set i.toNat w else xs ++ [w]

/-- `Simple E hid ty u c v`: of type `ty` the bytes `u` (then `hid`) stand for `v`, and `c` bytes are counted for it. -/
inductive Simple (E : Env) (hid : Bytes) : UInt8 → Bytes → Nat → Val → Prop
  | double (w : Nat) (u q : Bytes) : w < 2 ^ 64 → u ++ hid = le 8 w ++ q → Simple E hid 1 u 8 (.double (BitVec.ofNat 64 w))
  | str (s u q : Bytes) : s.length + 1 < 2 ^ 32 → u ++ hid = le 4 (s.length + 1) ++ (s ++ q) → Simple E hid 2 u (4 + (s.length + 1)) (.str s)
  | bin (s : UInt8) (d p q : Bytes) : s ≠ 2 → d.length < 2 ^ 32 → p ++ hid = d ++ q → Simple E hid 5 (le 4 d.length ++ s :: p) (4 + (d.length + 1)) (.bin 0 (s :: d))
  | bin2 (n : Nat) (x y d q : Bytes) : n < 2 ^ 32 → x.length = 4 → y.length = 5 → d.length < 2 ^ 32 →
      Simple E hid 5 (le 4 n ++ 2 :: (x ++ (le 4 d.length ++ (y ++ (d ++ q))))) (9 + d.length) (.bin 0 d)
  | oid (d u q : Bytes) : d.length = 12 → u ++ hid = d ++ q → Simple E hid 7 u 12 (.bin 7 d)
  | bool (x : UInt8) (q : Bytes) : Simple E hid 8 (x :: q) 1 (if x = 1 then .tru else .fls)
  | date (w : Nat) (u q : Bytes) : w < 2 ^ 64 → u ++ hid = le 8 w ++ q → Simple E hid 9 u 8 (.dateTime (E.ofMilli (BitVec.ofNat 64 w)))
  | int32 (w : Nat) (u q : Bytes) : w < 2 ^ 32 → u ++ hid = le 4 w ++ q → Simple E hid 16 u 4 (.int 0 (BitVec.ofNat 64 w))
  | stamp (w : Nat) (u q : Bytes) : w < 2 ^ 64 → u ++ hid = le 8 w ++ q → Simple E hid 17 u 8 (.int 17 (BitVec.ofNat 64 w))
  | int64 (w : Nat) (u q : Bytes) : w < 2 ^ 64 → u ++ hid = le 8 w ++ q → Simple E hid 18 u 8 (.int 0 (BitVec.ofNat 64 w))
  | dec (d u q : Bytes) : d.length = 16 → u ++ hid = d ++ q → Simple E hid 19 u 16 (.bin 19 d)
  | none (ty : UInt8) (u : Bytes) : ty ∉ [1, 2, 5, 7, 8, 9, 16, 17, 18, 19] → Simple E hid ty u 0 .null

mutual
/-- `Doc E hid s ku kvs n v`: the input from here on, `s`, begins with a document that says it is `n` bytes long, and reading it into the object with the members `kvs` gives `v`. -/
inductive Doc (E : Env) (hid : Bytes) : Bytes → Bool → List (Bytes × Val) → Nat → Val → Prop
  | mk (n : Nat) (q : Bytes) (ku : Bool) (kvs : List (Bytes × Val)) (v : Val) : n < 2 ^ 32 → q ≠ [] → n ≤ q.length + 4 → Body E hid (n - 4) q ku kvs v → Doc E hid (le 4 n ++ q) ku kvs n v
/-- `Body E hid m q ku kvs v`: the elements in `q`, of which `m` bytes are left to the document (none, too, when the last element went beyond its end). A document ends when nothing is left, or one byte that is zero. -/
inductive Body (E : Env) (hid : Bytes) : Nat → Bytes → Bool → List (Bytes × Val) → Val → Prop
  | done (q : Bytes) (ku : Bool) (kvs : List (Bytes × Val)) : Body E hid 0 q ku kvs (.obj ku kvs)
  | last (ty : UInt8) (k u : Bytes) (ku : Bool) (kvs : List (Bytes × Val)) (c : Nat) (w : Val) : 0 ∉ k → Elem E hid ty u (start ty (member E kvs k)) c w → (u.drop c).head? = some 0 →
      Body E hid (k.length + 2 + c + 1) (ty :: (k ++ 0 :: u)) ku kvs (.obj true (Assoc.put E.keyMatch kvs k w))
  | more (m : Nat) (ty : UInt8) (k u : Bytes) (ku : Bool) (kvs : List (Bytes × Val)) (c : Nat) (w v : Val) : m ≠ 0 → 0 ∉ k → Elem E hid ty u (start ty (member E kvs k)) c w →
      ¬ (m = k.length + 2 + c + 1 ∧ (u.drop c).head? = some 0) → Body E hid (m - (k.length + 2 + c)) (u.drop c) true (Assoc.put E.keyMatch kvs k w) v → Body E hid m (ty :: (k ++ 0 :: u)) ku kvs v
/-- `Elem E hid ty u cur c v`: the value of an element of type `ty`, read where `cur` is. -/
inductive Elem (E : Env) (hid : Bytes) : UInt8 → Bytes → Val → Nat → Val → Prop
  | simple (ty : UInt8) (u : Bytes) (cur : Val) (c : Nat) (v : Val) : ty ≠ 3 → ty ≠ 4 → Simple E hid ty u c v → Elem E hid ty u cur c v
  | doc (u : Bytes) (ku : Bool) (kvs : List (Bytes × Val)) (n : Nat) (v : Val) : Doc E hid u ku kvs n v → Elem E hid 3 u (.obj ku kvs) n v
  | arr (u : Bytes) (xs : List Val) (n : Nat) (q : Bytes) (v : Val) : n < 2 ^ 32 → u ++ hid = le 4 n ++ q → n ≤ u.length → Items E hid (n - 4) (u.drop 4) xs v → Elem E hid 4 u (.arr xs) n v
/-- `Items E hid m q xs v`: the same for the elements of an array; their names are read as numbers, and say where the value goes. -/
inductive Items (E : Env) (hid : Bytes) : Nat → Bytes → List Val → Val → Prop
  | done (q : Bytes) (xs : List Val) : Items E hid 0 q xs (.arr xs)
  | last (ty : UInt8) (k u : Bytes) (i : BitVec 64) (xs : List Val) (c : Nat) (w : Val) : 0 ∉ k → E.strToInt k = some i → i.toInt ≠ -1 → Elem E hid ty u (start ty (slot xs i.toInt)) c w →
      (u.drop c).head? = some 0 → Items E hid (k.length + 2 + c + 1) (ty :: (k ++ 0 :: u)) xs (.arr (store xs i.toInt w))
  | more (m : Nat) (ty : UInt8) (k u : Bytes) (i : BitVec 64) (xs : List Val) (c : Nat) (w v : Val) : m ≠ 0 → 0 ∉ k → E.strToInt k = some i → i.toInt ≠ -1 →
      Elem E hid ty u (start ty (slot xs i.toInt)) c w → ¬ (m = k.length + 2 + c + 1 ∧ (u.drop c).head? = some 0) → Items E hid (m - (k.length + 2 + c)) (u.drop c) (store xs i.toInt w) v →
      Items E hid m (ty :: (k ++ 0 :: u)) xs v
end

end Dxs.Bson.Spec
