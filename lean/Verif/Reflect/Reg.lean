import Verif.Reflect.Std

/-!
# Structs with registered converters

`RegisterTypeMapFunc` (struct_type.go:32-34) stores for a Go type a function that fills a value of this type from a `*DxValue`. `decode2reflectFromdxValue`
and `decodeArray2reflect` look it up before anything else. A type that implements `DxValueUnMarshaler` is treated in the same way (reflect_parse.go:18-21
and 88-97); for a type whose method has a value receiver the method gets a copy and the field stays as it was, which is a converter that answers
the old value.

Here the converters are any partial function from types to functions. Types are compared by structure: two named Go types of the same structure are one
type here.
-/

namespace Dxs.Reflect
open Dxs.Heap

/-- A converter: from the value of the field and the child to the new value of the field; it may panic. struct_type.go:30. -/
abbrev Conv := GV → Val → Res GV

/-- The table `structTypePool`, struct_type.go:25. -/
abbrev Reg := Ty → Option Conv

/-- `RegisterTypeMapFunc`, struct_type.go:32-34, for one type. `eq` says whether a type is the one registered; registering nil makes the code skip the entry
(reflect_parse.go:23-25). -/
def Reg.register (R : Reg) (eq : Ty → Bool) (c : Option Conv) : Reg := fun t => if eq t then c else R t

mutual
/-- One child into one field or element; the converter of the type first. reflect_parse.go:16-50; for slices 66-187, where the converter of the element
type is called with `Field(i)` of the slice (lines 95, 109), which panics. -/
def decValR (R : Reg) (E : Env) (parse : Bytes → Option F64) (ic : Bool) (t : Ty) (old : GV) : Val → Res GV
  | .nil =>
    match R t with
    | some c => c old .nil
    | none =>
      match t with
      | .other => .ok old
      | _ => .panic
  | .arr xs =>
    match R t with
    | some c => c old (.arr xs)
    | none =>
      match t with
      | .slice t' =>
        if xs.isEmpty then .ok old
        else
          match old with
          | .slice 0 _ =>
            match R t' with
            | some _ => .panic
            | none =>
              match t' with
              | .time => .panic
              | _ => do
                let ys ← decItemsR R E parse ic t' xs
                .ok (.slice xs.length ys)
          | _ => .panic
      | .struct _ => .ok old
      | t => scVal E parse t old (.arr xs)
  | .obj ku kvs =>
    match R t with
    | some c => c old (.obj ku kvs)
    | none =>
      match t with
      | .struct fs =>
        match old with
        | .struct gs => do
          let gs ← decMembersR R E parse ic fs gs kvs
          .ok (.struct gs)
        | old => .ok old
      | t => scVal E parse t old (.obj ku kvs)
  | v =>
    match R t with
    | some c => c old v
    | none => scVal E parse t old v
/-- The elements, each into a new zero element; only for element types without a converter. reflect_parse.go:124-183. -/
def decItemsR (R : Reg) (E : Env) (parse : Bytes → Option F64) (ic : Bool) (t : Ty) : List Val → Res (List GV)
  | [] => .ok []
  | x :: xs => do
    let y ← decValR R E parse ic t (zero t) x
    let ys ← decItemsR R E parse ic t xs
    .ok (y :: ys)
/-- The members, each into the first field of its name. reflect_parse.go:11-55. -/
def decMembersR (R : Reg) (E : Env) (parse : Bytes → Option F64) (ic : Bool) (fs : List (Bytes × Ty)) (gs : List GV) : List (Bytes × Val) → Res (List GV)
  | [] => .ok gs
  | (k, v) :: kvs =>
    match fieldOf E ic k fs with
    | none => decMembersR R E parse ic fs gs kvs
    | some i =>
      match fs[i]?, gs[i]? with
      | some f, some g => do
        let g' ← decValR R E parse ic f.2 g v
        decMembersR R E parse ic fs (gs.set i g') kvs
      | _, _ => decMembersR R E parse ic fs gs kvs
end

/-- `ToStdValue` with a pointer to a struct. reflect_parse.go:1047-1075. The converter registered for the struct type itself is not looked up; a pointer
type with `DxValueUnMarshaler` (`um`) is handed the whole value, of whatever kind, and the answer is true (lines 1055-1058). -/
def toStdStructR (R : Reg) (um : Option (List GV → Val → Res (List GV))) (E : Env) (parse : Bytes → Option F64) (ic : Bool) (fs : List (Bytes × Ty)) (gs : List GV) (v : Val) :
    Res (Bool × List GV) :=
  match um with
  | some m => do
    let gs ← m gs v
    .ok (true, gs)
  | none =>
    match v with
    | .nil => .panic
    | .obj _ kvs => do
      let gs ← decMembersR R E parse ic fs gs kvs
      .ok (true, gs)
    | _ => .ok (false, gs)

end Dxs.Reflect
