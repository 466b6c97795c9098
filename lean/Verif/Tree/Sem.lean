import Verif.Heap.Prog

/-!
# The operations on plain trees

What the statements of a program (`Verif.Heap.Prog`) mean when values are plain trees: there are no nodes, no caches and no shared
constants, every variable has a tree of its own. The little that the memory decides comes from an oracle:
the number an Int, Float, Double or DateTime node held before (`cell`, `Reset` and `getValue` do not clear it), whether a Null, True,
False, NaN or Inf is one of the shared constants or a node of its own (`own`; the statement does nothing to the constants), and whether
`clone` would meet such a node of its own (`mixed`; `Cmd.exec` leaves those copies out).
-/

namespace Dxs.Heap

/-- The members of a value that is made an object. -/
def objOf : Val → Bool × List (Bytes × Val)
  | .obj ku kvs => (ku, kvs)
  | _ => (false, [])

/-- The elements of a value that is made an array. -/
def arrOf : Val → List Val
  | .arr xs => xs
  | _ => []

/-- Whether the name is taken as an index, dxvalue.go:1127-1133, 1160-1166. -/
def asIndex (E : Env) (k : Bytes) : Val → Bool
  | .arr _ => strIdx E k ≠ -1
  | _ => false

/-- The value after something was stored under a name. -/
def putName (E : Env) (v : Val) (k : Bytes) (w : Val) : Val :=
  if asIndex E k v then arrPut (arrOf v) (strIdx E k) w else objPut E (objOf v).1 (objOf v).2 k w

/-- What a name refers to. -/
def oldName (E : Env) (v : Val) (k : Bytes) : Option Val :=
  if asIndex E k v then arrOld (arrOf v) (strIdx E k) else objOld E (objOf v).1 (objOf v).2 k

/-- What `SetKey` and `SetIndex` return: the old value if it has the type already, otherwise a new one. -/
def slotOf (t : VT) (c : BitVec 64) : Option Val → Val
  | some x => if x ≠ .nil ∧ x.vt = t then x else blankVal t c
  | none => blankVal t c

/-- A value is stored under a name, depending on the old one. A nil member panics (dxvalue.go:1137-1141). -/
def onName (E : Env) (v : Val) (k : Bytes) (f : Option Val → Val) : Res Val :=
  if asIndex E k v = false ∧ oldName E v k = some .nil then .panic else .ok (putName E v k (f (oldName E v k)))

/-- A value is stored at an index, depending on the old one. -/
def onIndex (v : Val) (i : Int) (f : Option Val → Val) : Val := arrPut (arrOf v) i (f (arrOld (arrOf v) i))

/-- `SetInt`: keeps `ExtType` of an Int. -/
def intInto (x : BitVec 64) : Val → Val
  | .int e _ => .int e x
  | _ => .int 0 x

/-- A lookup under a name unescapes the names of an object when it has to. -/
def looked (E : Env) (k : Bytes) : Val → Val
  | .obj ku kvs => .obj (indexByName E ku kvs k).2.1 (indexByName E ku kvs k).2.2
  | v => v

/-- Where a lookup goes. -/
def namePos (E : Env) (k : Bytes) : Val → Option Nat
  | .obj ku kvs => (indexByName E ku kvs k).1
  | .arr xs => if inRange (strIdx E k) xs.length then some (strIdx E k).toNat else none
  | _ => none

/-- A lookup along a path. -/
def lookedPath (E : Env) : List Bytes → Val → Val
  | [], v => v
  | k :: path, v =>
    match namePos E k v with
    | none => looked E k v
    | some i =>
      match (Val.kids v)[i]? with
      | none | some .nil => looked E k v
      | some w => Val.setKid (looked E k v) i (lookedPath E path w)

/-- An operation on a tree; `c`: the number left in the memory. -/
def Mut.onTree (E : Env) (c : BitVec 64) : Mut → Val → Res Val
  | .reset t, _ => .ok (blankVal t c)
  | .setInt x, v => .ok (intInto x v)
  | .setString x, _ => .ok (.str x)
  | .setBool x, _ => .ok (if x then .tru else .fls)
  | .setDouble x, v => .ok (if v.vt = .dateTime then .dateTime x else .double x)
  | .setTime x, v => .ok (if v.vt = .double then .double x else .dateTime x)
  | .setFloat x, _ => .ok (.float (setLo32 c x))
  | .setBinary x, .bin e _ => .ok (.bin e x)
  | .setBinary x, .exbin e (t :: _) => .ok (.exbin e (t :: x))
  | .setBinary x, .exbin _ [] => .ok (.bin 0 x)
  | .setBinary _, v => .ok v
  | .setExtType t, .exbin e b => .ok (.exbin e (t :: b.tail))
  | .setExtType _, v => .ok v
  | .setKey k t, v => onName E v k (slotOf t c)
  | .setKeyString k x, v => onName E v k (fun _ => .str x)
  | .setKeyInt k x, v => onName E v k (fun old => intInto x (slotOf .int 0 old))
  | .setKeyFloat k x, v => onName E v k (fun _ => .float (setLo32 c x))
  | .setKeyDouble k x, v => onName E v k (fun _ => .double x)
  | .setKeyBool k x, v => .ok (putName E v k (if x then .tru else .fls))
  | .setKeyTime k x, v => onName E v k (fun _ => .dateTime x)
  | .setIndex i t, v => .ok (onIndex v i (slotOf t c))
  | .setIndexString i x, v => .ok (onIndex v i (fun _ => .str x))
  | .setIndexInt i x, v => .ok (onIndex v i (fun old => intInto x (slotOf .int 0 old)))
  | .setIndexFloat i x, v => .ok (onIndex v i (fun _ => .float (setLo32 c x)))
  | .setIndexDouble i x, v => .ok (onIndex v i (fun _ => .double x))
  | .setIndexBool i x, v => .ok (onIndex v i (fun _ => if x then .tru else .fls))
  | .setIndexTime i x, v => .ok (onIndex v i (fun _ => .dateTime x))
  | .insertValue i t, v => .ok (arrIns (arrOf v) i (blankVal t 0))
  | .append t, v => .ok (arrIns (arrOf v) 2147483647 (blankVal t 0))
  | .removeKey k, .obj ku kvs => .ok (objDel E ku kvs k)
  | .removeKey _, v => .ok v
  | .extractValue k, .obj ku kvs => .ok (objDel E ku kvs k)
  | .extractValue _, v => .ok v
  | .removeIndex i, .arr xs => .ok (.arr (if 0 ≤ i ∧ i < xs.length then xs.take i.toNat ++ xs.drop (i.toNat + 1) else xs))
  | .removeIndex _, v => .ok v
  | .valueByName k, v => .ok (looked E k v)
  | .valueByPath path, v => .ok (lookedPath E path v)
  | .items i, .obj ku kvs => .ok (if inRange i kvs.length then .obj true (unescKeys E ku kvs) else .obj ku kvs)
  | .items _, v => .ok v
  | .string _, .raw s => .ok (.str (E.unesc s))
  | .string _, v => .ok v

mutual
/-- No True, False, NaN or Inf anywhere. -/
def noConst : Val → Bool
  | .tru | .fls | .nan | .inf => false
  | .obj _ kvs => noConstM kvs
  | .arr xs => noConstL xs
  | _ => true
/-- The members. -/
def noConstM : List (Bytes × Val) → Bool
  | [] => true
  | (_, v) :: kvs => noConst v && noConstM kvs
/-- The elements. -/
def noConstL : List Val → Bool
  | [] => true
  | v :: vs => noConst v && noConstL vs
end

/-- What the memory decides. -/
structure Orc where
  cell : BitVec 64 := 0
  own : Bool := true
  mixed : Bool := false

/-- A value that may be one of the shared constants. -/
def isConst (v : Val) : Bool := v ≠ .nil && (constOf v.vt).isSome

/-- The trees of the variables; `.nil`: nil. -/
abbrev Trees := Nat → Val

/-- Store a tree. -/
def Trees.put (T : Trees) (i : Nat) (v : Val) : Trees := fun j => if j = i then v else T j

/-- The value at a position. -/
def Trees.walk (T : Trees) (i : Nat) (π : List Nat) : Res Val :=
  match Val.sub (T i) π with
  | none | some .nil => .panic
  | some v => .ok v

/-- Whether a statement leaves the value alone because it is a shared constant. -/
def Orc.skip (o : Orc) (v : Val) : Bool := isConst v && !o.own

/-- Whether `Cmd.exec` copies the value. -/
def Orc.copies (o : Orc) (f : Nat) (v : Val) : Bool := decide (height v ≤ f) && (noConst v || !o.mixed)

/-- A statement on trees. Storing a value moves it. -/
def Cmd.onTree (E : Env) (o : Orc) (T : Trees) : Cmd → Res Trees
  | .newValue i t => .ok (T.put i (blankVal t 0))
  | .newCached i t _ => .ok (T.put i (blankVal t o.cell))
  | .newObject i _ _ => .ok (T.put i (.obj false []))
  | .newArray i _ _ => .ok (T.put i (.arr []))
  | .act i π m => do
    let v ← T.walk i π
    if o.skip v then .ok T
    else do
      let v' ← m.onTree E o.cell v
      .ok (T.put i (Val.subst (T i) π v'))
  | .putKey i π k j => do
    let v ← T.walk i π
    if o.skip v || i == j then .ok T
    else .ok ((T.put i (Val.subst (T i) π (putName E v k (T j)))).put j .nil)
  | .putIndex i π n j => do
    let v ← T.walk i π
    if o.skip v || i == j then .ok T
    else .ok ((T.put i (Val.subst (T i) π (arrPut (arrOf v) n (T j)))).put j .nil)
  | .clear i => do
    let v ← T.walk i []
    .ok (T.put i (clearVal v))
  | .free i _ => do
    let v ← T.walk i []
    if o.skip v then .ok T else .ok (T.put i .nil)
  | .forget i => .ok (T.put i .nil)
  | .clone i j π _ _ f => do
    let v ← T.walk j π
    if !o.copies f v then .ok T
    else if noNil v then .ok (T.put i (cloneVal v)) else .panic
  | .copyFrom i π j ρ f => do
    let v ← T.walk i π
    let w ← T.walk j ρ
    if o.skip v || i == j || !o.copies f w then .ok T
    else if noNil w then .ok (T.put i (Val.subst (T i) π (cloneVal w))) else .panic
  | .addFrom i π j ρ f => do
    let v ← T.walk i π
    let w ← T.walk j ρ
    if o.skip v || i == j || !o.copies f w then .ok T
    else
      match addVal v w with
      | none => .ok T
      | some v' => if noNil w then .ok (T.put i (Val.subst (T i) π v')) else .panic

/-- A program on trees, with an oracle for every statement. -/
def treeAll (E : Env) : Trees → List (Cmd × Orc) → Res Trees
  | T, [] => .ok T
  | T, (c, o) :: cs => do
    let T ← c.onTree E o T
    treeAll E T cs

end Dxs.Heap
