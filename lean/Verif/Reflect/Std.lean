import Verif.Reflect.Model
import Verif.Assoc
import Verif.Json.Model

/-!
# Go data: `ToStdValue`

`ToStdValue` of reflect_parse.go on value trees: it reads the tree (that `String` turns a raw string into a string is left out here, it does
not change what is read). Times are identified with their Delphi number.
-/

namespace Dxs.Reflect
open Dxs.Heap

/-- A node with the type and the fields of a tree's root. -/
def rootNode : Val → Node
  | .nil => Node.zero
  | .obj .. => { Node.zero with dt := .object }
  | .arr _ => { Node.zero with dt := .array }
  | .str s => { Node.zero with dt := .string, str := s }
  | .raw s => { Node.zero with dt := .rawString, str := s }
  | .int e c => { Node.zero with dt := .int, ext := e, cell := c }
  | .float c => { Node.zero with dt := .float, cell := c }
  | .double c => { Node.zero with dt := .double, cell := c }
  | .dateTime c => { Node.zero with dt := .dateTime, cell := c }
  | .bin e b => { Node.zero with dt := .binary, ext := e, bin := b }
  | .exbin e b => { Node.zero with dt := .exBinary, ext := e, bin := b }
  | .null => { Node.zero with dt := .null }
  | .tru => { Node.zero with dt := .true }
  | .fls => { Node.zero with dt := .false }
  | .nan => { Node.zero with dt := .nan }
  | .inf => { Node.zero with dt := .inf }

theorem rootNode_vt {v : Val} (h : v ≠ .nil) : (rootNode v).dt = v.vt := by cases v <;> first | rfl | exact absurd rfl h

/-- `Int`, dxvalue.go:535-551, of a tree. -/
def valInt (E : Env) (v : Val) : BitVec 64 := getInt E (rootNode v)
/-- `Double`, dxvalue.go:906-922, of a tree. -/
def valDouble (E : Env) (v : Val) : F64 := getDouble E (rootNode v)
/-- `Bool`, dxvalue.go:878-889, of a tree. -/
def valBool (E : Env) (v : Val) : Bool := getBool E (rootNode v)
/-- `String`, dxvalue.go:707-758, of a tree; objects and arrays give their JSON text. -/
def valString (E : Env) (v : Val) : Res Bytes := (getString E (Json.value2FormatJson E .onlyAnsi false v) (rootNode v)).1

mutual
/-- What a member (or element) is turned into; `none`: the switch has no case for it. reflect_parse.go:974-1001, 1009-1036.
The slice of line 980 is filled by appending to a copy of its header (line 1013 ff.), so its Count() nils stay as they are. -/
def stdVal (E : Env) : Val → Res (Option Go)
  | .nil => .panic
  | .obj _ kvs => do
    let m ← stdMap E [] kvs
    .ok (some (.map m))
  | .arr xs => do
    let _ ← stdArr E (List.replicate xs.length .nil) xs
    .ok (some (.slice (List.replicate xs.length .nil)))
  | .str s => .ok (some (.sc (.str s)))
  | .raw s => .ok (some (.sc (.str (E.unesc s))))
  | .int _ x => .ok (some (.sc (.int x)))
  | .dateTime x => .ok (some (.time x))
  | .double x => .ok (some (.sc (.f64 x)))
  | .float c => .ok (some (.sc (.f32 (lo32 c))))
  | .bin _ b => .ok (some (.bytes b))
  | .exbin _ b => .ok (some (.bytes b.tail))
  | .tru => .ok (some (.sc (.bool true)))
  | .fls => .ok (some (.sc (.bool false)))
  | .null => .ok (some .nil)
  | .nan => .ok none
  | .inf => .ok none
/-- The members of an object into a map; `Visit` hands out the names as they are stored. reflect_parse.go:973-1003, dxvalue.go:1326-1334. -/
def stdMap (E : Env) (dst : List (Bytes × Go)) : List (Bytes × Val) → Res (List (Bytes × Go))
  | [] => .ok dst
  | (k, v) :: kvs => do
    let g ← stdVal E v
    stdMap E (match g with | some g => Assoc.put (· == ·) dst k g | none => dst) kvs
/-- The elements of an array, appended to the local slice. reflect_parse.go:1008-1038. -/
def stdArr (E : Env) (dst : List Go) : List Val → Res (List Go)
  | [] => .ok dst
  | v :: vs => do
    let g ← stdVal E v
    stdArr E (match g with | some g => dst ++ [g] | none => dst) vs
end

/-- `ToStdValue` with a `map[string]interface{}`: the answer and the map afterwards. reflect_parse.go:969-1003. -/
def toStdMap (E : Env) (dst : List (Bytes × Go)) : Val → Res (Bool × List (Bytes × Go))
  | .nil => .panic
  | .obj _ kvs => do
    let m ← stdMap E dst kvs
    .ok (true, m)
  | _ => .ok (false, dst)

/-- `ToStdValue` with a `[]interface{}`: the answer and the caller's slice afterwards. reflect_parse.go:1004-1038. -/
def toStdSlice (E : Env) (dst : List Go) : Val → Res (Bool × List Go)
  | .nil => .panic
  | .arr xs => do
    let _ ← stdArr E dst xs
    .ok (true, dst)
  | _ => .ok (false, dst)

/-! ## Structs -/

/-- Go types of struct fields and slice elements. -/
inductive Ty
  | str
  /-- int, int8, …: the number of bits. -/
  | int (w : Nat)
  | uint (w : Nat)
  | f32
  | f64
  | bool
  | time
  | slice (t : Ty)
  | struct (fs : List (Bytes × Ty))
  /-- Pointers, maps, interfaces, arrays: the code has no case for them. -/
  | other

/-- Go values of these types. -/
inductive GV
  | str (s : Bytes)
  | int (w : Nat) (x : BitVec w)
  | uint (w : Nat) (x : BitVec w)
  | f32 (x : F32)
  | f64 (x : F64)
  | bool (b : Bool)
  /-- A time by its Delphi number; `none` is the zero time. -/
  | time (x : Option F64)
  /-- A slice with its capacity. -/
  | slice (cap : Nat) (xs : List GV)
  | struct (fs : List GV)
  | other

mutual
/-- The zero value of a type. -/
def zero : Ty → GV
  | .str => .str []
  | .int w => .int w 0
  | .uint w => .uint w 0
  | .f32 => .f32 0
  | .f64 => .f64 0
  | .bool => .bool false
  | .time => .time none
  | .slice _ => .slice 0 []
  | .struct fs => .struct (zeros fs)
  | .other => .other
/-- The zero values of fields. -/
def zeros : List (Bytes × Ty) → List GV
  | [] => []
  | (_, t) :: fs => zero t :: zeros fs
end

/-- `GoTime` of a tree, dxvalue.go:971-985; the Delphi number. `parse` stands for the three calls of `time.ParseInLocation`. -/
def valTime (E : Env) (parse : Bytes → Option F64) (v : Val) : Option F64 :=
  match v with
  | .int .. | .float _ | .double _ | .dateTime _ => some (valDouble E v)
  | .str s | .raw s => parse s
  | _ => none

/-- The first field with this name. reflect_parse.go:13-15. -/
def fieldOf (E : Env) (ic : Bool) (key : Bytes) (fs : List (Bytes × Ty)) : Option Nat :=
  fs.findIdx? (fun f => (ic && E.equalFold key f.1) || key == f.1)

mutual
/-- One child into one field or element. reflect_parse.go:16-50 and, for slices, 66-187. `Field` of a slice panics (lines 81, 84, 120): with a
capacity, and for slices of times. Registered converters and `DxValueUnMarshaler`: Reflect/Reg.lean. -/
def decVal (E : Env) (parse : Bytes → Option F64) (ic : Bool) (t : Ty) (old : GV) : Val → Res GV
  | .nil =>
    match t with
    | .other => .ok old
    | _ => .panic
  | .arr xs =>
    match t with
    | .slice t' =>
      if xs.isEmpty then .ok old
      else
        match old with
        | .slice 0 _ =>
          match t' with
          | .time => .panic
          | _ => do
            let ys ← decItems E parse ic t' xs
            .ok (.slice xs.length ys)
        | _ => .panic
    | .struct _ => .ok old
    | t => scVal E parse t old (.arr xs)
  | .obj ku kvs =>
    match t with
    | .struct fs =>
      match old with
      | .struct gs => do
        let gs ← decMembers E parse ic fs gs kvs
        .ok (.struct gs)
      | old => .ok old
    | t => scVal E parse t old (.obj ku kvs)
  | v => scVal E parse t old v
/-- A child into a field of a basic type; slices and structs stay as they are. reflect_parse.go:30-40, 44-45. -/
def scVal (E : Env) (parse : Bytes → Option F64) (t : Ty) (old : GV) (v : Val) : Res GV :=
  match t with
  | .str => do
    let s ← valString E v
    .ok (.str s)
  | .int w => .ok (.int w ((valInt E v).setWidth w))
  | .uint w => .ok (.uint w ((valInt E v).setWidth w))
  | .f32 => .ok (.f32 (E.f64to32 (valDouble E v)))
  | .f64 => .ok (.f64 (valDouble E v))
  | .bool => .ok (.bool (valBool E v))
  | .time => .ok (.time (valTime E parse v))
  | _ => .ok old
/-- The elements, each into a new zero element. reflect_parse.go:124-183. -/
def decItems (E : Env) (parse : Bytes → Option F64) (ic : Bool) (t : Ty) : List Val → Res (List GV)
  | [] => .ok []
  | x :: xs => do
    let y ← decVal E parse ic t (zero t) x
    let ys ← decItems E parse ic t xs
    .ok (y :: ys)
/-- The members, each into the first field of its name. reflect_parse.go:11-55. -/
def decMembers (E : Env) (parse : Bytes → Option F64) (ic : Bool) (fs : List (Bytes × Ty)) (gs : List GV) : List (Bytes × Val) → Res (List GV)
  | [] => .ok gs
  | (k, v) :: kvs =>
    match fieldOf E ic k fs with
    | none => decMembers E parse ic fs gs kvs
    | some i =>
      match fs[i]?, gs[i]? with
      | some f, some g => do
        let g' ← decVal E parse ic f.2 g v
        decMembers E parse ic fs (gs.set i g') kvs
      | _, _ => decMembers E parse ic fs gs kvs
end

/-- `ToStdValue` with a pointer to a struct. reflect_parse.go:1047-1075. -/
def toStdStruct (E : Env) (parse : Bytes → Option F64) (ic : Bool) (fs : List (Bytes × Ty)) (gs : List GV) : Val → Res (Bool × List GV)
  | .nil => .panic
  | .obj _ kvs => do
    let gs ← decMembers E parse ic fs gs kvs
    .ok (true, gs)
  | _ => .ok (false, gs)

/-! ## Other destinations -/

/-- `Float`, dxvalue.go:924-940, of a tree. -/
def valFloat (E : Env) (v : Val) : F32 := getFloat E (rootNode v)

/-- The members of an object into a `map[string]string`. reflect_parse.go:965-968. `String` of a nil member panics. -/
def strMap (E : Env) (dst : List (Bytes × Bytes)) : List (Bytes × Val) → Res (List (Bytes × Bytes))
  | [] => .ok dst
  | (_, .nil) :: _ => .panic
  | (k, v) :: kvs => do
    let t ← valString E v
    strMap E (Assoc.put (· == ·) dst k t) kvs

/-- `ToStdValue` with a `map[string]string`, reflect_parse.go:961-968. -/
def toStdStrMap (E : Env) (dst : List (Bytes × Bytes)) : Val → Res (Bool × List (Bytes × Bytes))
  | .nil => .panic
  | .obj _ kvs => do
    let m ← strMap E dst kvs
    .ok (true, m)
  | _ => .ok (false, dst)

/-- The elements of an array, appended to the local slice. reflect_parse.go:1043-1046. -/
def strArr (E : Env) (dst : List Bytes) : List Val → Res (List Bytes)
  | [] => .ok dst
  | .nil :: _ => .panic
  | v :: vs => do
    let t ← valString E v
    strArr E (dst ++ [t]) vs

/-- `ToStdValue` with a `[]string`: the answer and the caller's slice afterwards. reflect_parse.go:1039-1046. -/
def toStdStrSlice (E : Env) (dst : List Bytes) : Val → Res (Bool × List Bytes)
  | .nil => .panic
  | .arr xs => do
    let _ ← strArr E dst xs
    .ok (true, dst)
  | _ => .ok (false, dst)

/-- `ToStdValue` with a pointer to a number, a string, a bool, a time: the answer and what it points to. reflect_parse.go:929-960. -/
def toStdPtr (E : Env) (parse : Bytes → Option F64) (t : Ty) (old : GV) (v : Val) : Res (Bool × GV) :=
  match v with
  | .nil => .panic
  | v =>
    match t with
    | .int w => .ok (true, .int w ((valInt E v).setWidth w))
    | .uint w => .ok (true, .uint w ((valInt E v).setWidth w))
    | .str => do
      let s ← valString E v
      .ok (true, .str s)
    | .bool => .ok (true, .bool (valBool E v))
    | .time => .ok (true, .time (valTime E parse v))
    | .f64 => .ok (true, .f64 (valDouble E v))
    | .f32 => .ok (true, .f32 (valFloat E v))
    | _ => .ok (false, old)

/-- `ToStdValue` with a pointer to a slice (other than `*[]byte`), reflect_parse.go:1047-1075: only objects get to `decodeArray2reflect`, which does nothing
with them (line 67); its answer is not used. -/
def toStdSlicePtr (old : List GV) : Val → Res (Bool × List GV)
  | .nil => .panic
  | .obj .. => .ok (true, old)
  | _ => .ok (false, old)

end Dxs.Reflect
