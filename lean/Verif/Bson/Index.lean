import Verif.Bson.Reading

/-! # Arrays with any names, documents with any length

The specification names the elements of an array 0, 1, 2 and so on. What the package (bson_parse.go:91-156) makes of other names, and of documents with another length field. -/

namespace Dxs.Bson.Spec

/-- The elements of an array one after the other: a name that is no number (as `DxCommonLib.StrToIntDef` reads them, bson_parse.go:120) or is -1 is an error; an element whose number is that of one already read is read over it; every other one is put at the end, whatever its number. -/
def storing (E : Env) : List (Bytes × BElem) → List Val → Res (List Val)
  | [], l => .ok l
  | (k, e) :: kvs, l =>
    match E.strToInt k with
    | none => .err .bsonArrayIndex
    | some i => if i.toInt = -1 then .err .bsonArrayIndex else storing E kvs (store l i.toInt (reading E e ((slot l i.toInt).getD .null)))

/-- The document with one member, an array whose elements have the names given. -/
def arrayDoc (name : Bytes) (kvs : List (Bytes × BElem)) : Bytes := frame (4 :: (name ++ 0 :: frame (members kvs)))

/-- The members that begin in the first `n` bytes: what the package reads of a document whose length field leaves `n` bytes for them (bson_parse.go:38-86). -/
def upTo : Nat → List (Bytes × BElem) → List (Bytes × BElem)
  | 0, _ => []
  | _ + 1, [] => []
  | n + 1, (k, e) :: kvs => (k, e) :: upTo (n + 1 - (k.length + 2 + (payload e).length)) kvs

end Dxs.Bson.Spec
