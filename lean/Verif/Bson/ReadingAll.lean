import Verif.Bson.Reading

/-! # The same with empty documents and arrays

An empty document is five bytes, the last of them zero. The package (bson_parse.go:24-156) takes this zero for the type of an element, and what follows the document, up to the next zero byte, for its name; the element becomes null, and reading goes on right behind the five bytes. -/

namespace Dxs.Bson.Spec

mutual
/-- No binary of the old subtype 2 (C62). -/
def NoOld : BElem → Prop
  | .doc kvs => NoOldM kvs
  | .arr xs => NoOldL xs
  | .bin sub _ => sub ≠ 2
  | _ => True
def NoOldM : List (Bytes × BElem) → Prop
  | [] => True
  | (_, e) :: kvs => NoOld e ∧ NoOldM kvs
def NoOldL : List BElem → Prop
  | [] => True
  | e :: es => NoOld e ∧ NoOldL es
end

/-- The bytes up to the first zero byte, if there is one. -/
def cstring (r : Bytes) : Option Bytes := if (0 : UInt8) ∈ r then some (r.takeWhile (· != 0)) else none

mutual
/-- What an element is read as where `old` was before and `r` follows in the input. -/
def readAll (E : Env) : BElem → Val → Bytes → Res Val
  | .doc [], old, r =>
    match cstring r with
    | none => .err .invalidBson
    | some k => .ok (.obj true (Assoc.put E.keyMatch (match old with | .obj _ m => m | _ => []) k .null))
  | .doc (kv :: kvs), old, r => do
    let m ← readAllM E (kv :: kvs) (match old with | .obj _ m => m | _ => []) (0 :: r)
    .ok (.obj true m)
  | .arr [], old, r =>
    match cstring r with
    | none => .err .invalidBson
    | some k =>
      match E.strToInt k with
      | none => .err .bsonArrayIndex
      | some i => if i.toInt = -1 then .err .bsonArrayIndex else .ok (.arr (store (match old with | .arr l => l | _ => []) i.toInt .null))
  | .arr (x :: xs), old, r => do
    let l ← readAllL E 0 (x :: xs) (match old with | .arr l => l | _ => []) (0 :: r)
    .ok (.arr l)
  | e, old, _ => .ok (reading E e old)
/-- Members one after the other. -/
def readAllM (E : Env) : List (Bytes × BElem) → List (Bytes × Val) → Bytes → Res (List (Bytes × Val))
  | [], m, _ => .ok m
  | (k, e) :: kvs, m, r => do
    let w ← readAll E e ((member E m k).getD .null) (members kvs ++ r)
    readAllM E kvs (Assoc.put E.keyMatch m k w) r
/-- Elements from index `i` on. -/
def readAllL (E : Env) : Nat → List BElem → List Val → Bytes → Res (List Val)
  | _, [], l, _ => .ok l
  | i, e :: es, l, r => do
    let w ← readAll E e (l[i]?.getD .null) (elems (i + 1) es ++ r)
    readAllL E (i + 1) es (if i < l.length then l.set i w else l ++ [w]) r
end

end Dxs.Bson.Spec
