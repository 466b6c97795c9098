import Verif.Heap.Copy

/-!
# Go data: `SetValue`

`SetValue`, `SetKeyvalue`, `SetIndexvalue` of reflect_parse.go, on the memory of nodes. Go data is a tree (`Go`). A map is the
list of its entries in the order in which Go hands them out, which may be any order. Not modelled: data that contains
`*DxValue`/`DxValue` or implements `DxValueMarshaler`; data with cycles. A pointer to a value is that value (the code has a case
`*T` for each case `T`, or calls `Elem`), a nil pointer is `nilPtr`, a pointer to a pointer is `other`. Struct fields are exported and not of an interface type.

-/

namespace Dxs.Reflect
open Dxs.Heap

/-- Data of a basic type; integers are converted to int64 as the code does. -/
inductive Sc
  | int (x : BitVec 64)
  | uint (x : BitVec 64)
  | str (s : Bytes)
  | bool (b : Bool)
  | f32 (x : F32)
  | f64 (x : F64)
deriving DecidableEq

/-- Go data in an `interface{}`. -/
inductive Go
  /-- The nil interface. -/
  | nil
  /-- A basic type. -/
  | sc (s : Sc)
  /-- A type declared by `type T int` (string, …), such as `time.Duration`. -/
  | named (s : Sc)
  /-- `time.Time`; `x` is what `Time2DelphiTime` gives. -/
  | time (x : F64)
  /-- `[]byte`. -/
  | bytes (b : Bytes)
  /-- `map[string]interface{}`, `map[string]string`, `map[string]int`. -/
  | map (kvs : List (Bytes × Go))
  /-- `[]interface{}`, `[]string`. -/
  | slice (xs : List Go)
  /-- Any other map whose keys are strings. -/
  | rmap (kvs : List (Bytes × Go))
  /-- Any other slice. -/
  | rslice (xs : List Go)
  /-- A struct. -/
  | struct (fs : List (Bytes × Go))
  /-- A nil pointer; to one of the types with a case of its own (`*int`, `*map[string]int`, …), or not. -/
  | nilPtr (basic : Bool)
  /-- Anything else: arrays, channels, functions, maps with other keys. -/
  | other

/-- A member with a basic value, reflect_parse.go:459-500, 505-516, 521-528. -/
def scKey (E : Env) (h : Heap) (p : Ptr) (name : Bytes) (c : Option CId) : Sc → Res Heap
  | .int x | .uint x => do let (q, h) ← setKeyCached E h p name .int c; .ok (setInt h q x)
  | .str s => do let (q, h) ← setKeyCached E h p name .string c; .ok (setString h q s)
  | .bool b => .ok (setKeyValue E h p name (some (if b then trueP else falseP)))
  | .f32 x => do let (q, h) ← setKeyCached E h p name .float c; .ok (setFloat h q x)
  | .f64 x => do let (q, h) ← setKeyCached E h p name .double c; .ok (setDouble h q x)

/-- A member with a basic value, through `reflect`: a field of a struct (`fld`), reflect_parse.go:357-372, 613-628, 843-858, or an
entry of a map, reflect_parse.go:407-423, 653-669, 883-899. Of an unsigned field `fv.Int()` panics. A float32 is put into a node
that was made for a double. -/
def rscKey (E : Env) (h : Heap) (p : Ptr) (name : Bytes) (c : Option CId) (fld : Bool) : Sc → Res Heap
  | .int x => do let (q, h) ← setKeyCached E h p name .int c; .ok (setInt h q x)
  | .uint x => do
    let (q, h) ← setKeyCached E h p name .int c
    if fld then .panic else .ok (setInt h q x)
  | .str s => do let (q, h) ← setKeyCached E h p name .string c; .ok (setString h q s)
  | .bool b => .ok (setKeyValue E h p name (some (if b then trueP else falseP)))
  | .f32 x => do let (q, h) ← setKeyCached E h p name .double c; .ok (setFloat h q x)
  | .f64 x => do let (q, h) ← setKeyCached E h p name .double c; .ok (setDouble h q x)

/-- An element with a basic value, reflect_parse.go:695-736, 741-752, 757-764. -/
def scIdx (h : Heap) (p : Ptr) (i : Nat) (c : Option CId) : Sc → Heap
  | .int x | .uint x => let (q, h) := setIndexCached h p i .int c; setInt h q x
  | .str s => let (q, h) := setIndexCached h p i .string c; setString h q s
  | .bool b => setIndexValue h p i (some (if b then trueP else falseP))
  | .f32 x => let (q, h) := setIndexCached h p i .float c; setFloat h q x
  | .f64 x => let (q, h) := setIndexCached h p i .double c; setDouble h q x

mutual
/-- `SetKeyvalue`, reflect_parse.go:457-691. (`SetTime` on a new VT_DateTime node does what `SetDouble` does.) -/
def setKeyvalue (E : Env) (h : Heap) (p : Ptr) (name : Bytes) (c : Option CId) : Go → Res Heap
  | .nil => .ok h
  | .sc s => scKey E h p name c s
  | .named _ => .ok h
  | .time x => do let (q, h) ← setKeyCached E h p name .dateTime c; .ok (setDouble h q x)
  | .bytes b => do let (q, h) ← setKeyCached E h p name .binary c; .ok (setBinary h q b)
  | .map kvs => do let (q, h) ← setKeyCached E h p name .object c; setKeys E h q c kvs
  | .slice xs => do let (q, h) ← setKeyCached E h p name .array c; setItems E h q c 0 xs
  | .rmap [] => .ok h
  | .rmap (kv :: kvs) => do let (q, h) ← setKeyCached E h p name .object c; setFields E h q c false (kv :: kvs)
  | .rslice xs => do let (q, h) ← setKeyCached E h p name .array c; setRItems E h q c 0 xs
  | .struct fs => do let (q, h) ← setKeyCached E h p name .object c; setFields E h q c true fs
  | .nilPtr basic => if basic then .panic else .ok h
  | .other => .ok h
/-- `SetIndexvalue`, reflect_parse.go:693-922. -/
def setIndexvalue (E : Env) (h : Heap) (p : Ptr) (i : Nat) (c : Option CId) : Go → Res Heap
  | .nil => .ok h
  | .sc s => .ok (scIdx h p i c s)
  | .named _ => .ok h
  | .time x => let (q, h) := setIndexCached h p i .dateTime c; .ok (setDouble h q x)
  | .bytes b => let (q, h) := setIndexCached h p i .binary c; .ok (setBinary h q b)
  | .map kvs => let (q, h) := setIndexCached h p i .object c; setKeys E h q c kvs
  | .slice xs => let (q, h) := setIndexCached h p i .array c; setItems E h q c 0 xs
  | .rmap [] => .ok h
  | .rmap (kv :: kvs) => let (q, h) := setIndexCached h p i .object c; setFields E h q c false (kv :: kvs)
  | .rslice xs => let (q, h) := setIndexCached h p i .array c; setRItems E h q c 0 xs
  | .struct fs => let (q, h) := setIndexCached h p i .object c; setFields E h q c true fs
  | .nilPtr _ => .panic
  | .other => .ok h
/-- The loop over a map, reflect_parse.go:535-537, 540-542, 545-547, 555-557, 771-773 and elsewhere. -/
def setKeys (E : Env) (h : Heap) (p : Ptr) (c : Option CId) : List (Bytes × Go) → Res Heap
  | [] => .ok h
  | (k, g) :: kvs => do
    let h ← setKeyvalue E h p k c g
    setKeys E h p c kvs
/-- The loop over a slice, reflect_parse.go:565-567, 570-572, 575-577, 801-803 and elsewhere. -/
def setItems (E : Env) (h : Heap) (p : Ptr) (c : Option CId) (i : Nat) : List Go → Res Heap
  | [] => .ok h
  | g :: xs => do
    let h ← setIndexvalue E h p i c g
    setItems E h p c (i + 1) xs
/-- The loop over a slice of another type, reflect_parse.go:442-451, 678-687, 909-918. A nil pointer becomes null. -/
def setRItems (E : Env) (h : Heap) (p : Ptr) (c : Option CId) (i : Nat) : List Go → Res Heap
  | [] => .ok h
  | g :: xs => do
    let h ← (match g with
      | .nilPtr _ => .ok (setIndexCached h p i .null c).2
      | g => setIndexvalue E h p i c g)
    setRItems E h p c (i + 1) xs
/-- The loop over the fields of a struct (`fld`), reflect_parse.go:351-387, 607-634, 837-864, or over a map of another type,
reflect_parse.go:402-438, 648-675, 878-905. A nil pointer panics: `CanInterface` of the zero `reflect.Value`. -/
def setFields (E : Env) (h : Heap) (p : Ptr) (c : Option CId) (fld : Bool) : List (Bytes × Go) → Res Heap
  | [] => .ok h
  | (k, g) :: fs => do
    let h ← (match g with
      | .sc s => rscKey E h p k c fld s
      | .named s => rscKey E h p k c fld s
      | .nilPtr _ => .panic
      | g => setKeyvalue E h p k c g)
    setFields E h p c fld fs
end

/-- `SetValue`, reflect_parse.go:189-455. -/
def setValue (E : Env) (h : Heap) (p : Ptr) (g : Go) : Res Heap :=
  if shared p then .ok h
  else
    match g with
    | .nil => .ok h
    | .sc (.int x) | .sc (.uint x) => .ok (setInt h p x)
    | .sc (.str s) => .ok (setString h p s)
    | .sc (.bool b) => .ok (setBool h p b)
    | .sc (.f32 x) => .ok (setFloat h p x)
    | .sc (.f64 x) => .ok (setDouble h p x)
    | .named _ => .ok h
    | .time x => .ok (setDouble h p x)
    | .bytes b => .ok (setBinary h p b)
    | .map kvs => let h := reset h p .object; setKeys E h p (h.mem p).owner kvs
    | .slice xs => let h := reset h p .array; setItems E h p (h.mem p).owner 0 xs
    | .rmap [] => .ok h
    | .rmap (kv :: kvs) => let h := reset h p .object; setFields E h p (h.mem p).owner false (kv :: kvs)
    | .rslice xs => let h := reset h p .array; setRItems E h p (h.mem p).owner 0 xs
    | .struct fs => let h := reset h p .object; setFields E h p (h.mem p).owner true fs
    | .nilPtr basic => if basic then .panic else .ok h
    | .other => .ok h

end Dxs.Reflect
