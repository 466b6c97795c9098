import Verif.Val

/-!
# Several goroutines

Two kinds of reading change the value: `ValueByName`/`indexByName` unescape the names of an object when they need to
(`UnEscapestrs`), `String` unescapes a string. Here several goroutines do this at the same time. A step reads or writes one field
(`keysUnescaped`, one name, `DataType`, `fstrvalue`); steps of different goroutines come in any order. That a step reads or
writes a whole Go string at once is an assumption in favour of the code (a string has two words). The lists of members and the
members themselves are not written by readers.
-/

namespace Dxs.Conc

/-! ## Looking up names -/

/-- What goroutines share: the object. -/
structure Obj (α : Type) where
  /-- `keysUnescaped`. -/
  ku : Bool
  /-- `strkvs`. -/
  kvs : List (Bytes × α)

/-- Where a goroutine is in `indexByName` (dxvalue.go:99-115) or `ValueByName` (dxvalue.go:117-133). -/
inductive Pc
  /-- Line 100 (118). -/
  | start
  /-- The first loop, line 101 (119), at member `i`. -/
  | scan1 (i : Nat)
  /-- The test in `UnEscapestrs`, line 136. -/
  | un
  /-- The loop of `UnEscapestrs`, line 139, before `kv.K` is read; behind the last member: line 143. -/
  | unRead (i : Nat)
  /-- The same, line 141, before `kv.K` is written; `s` was read. -/
  | unWrite (i : Nat) (s : Bytes)
  /-- The second loop, line 109 (127), at member `i`. -/
  | scan2 (i : Nat)
  /-- Returned: the member that was found. -/
  | done (r : Option Nat)
deriving DecidableEq

/-- One step of a goroutine that looks up `name`. -/
def step (E : Env) (name : Bytes) (o : Obj α) : Pc → Obj α × Pc
  | .start => (o, if !o.ku && !(name.contains 92) then .scan1 0 else .un)
  | .scan1 i =>
    match o.kvs[i]? with
    | none => (o, .un)
    | some kv => (o, if E.keyMatch kv.1 name then .done (some i) else .scan1 (i + 1))
  | .un => (o, if o.ku then .scan2 0 else .unRead 0)
  | .unRead i =>
    match o.kvs[i]? with
    | none => ({ o with ku := true }, .scan2 0)
    | some kv => (o, .unWrite i kv.1)
  | .unWrite i s => ({ o with kvs := o.kvs.modify i (fun kv => (E.unesc s, kv.2)) }, .unRead (i + 1))
  | .scan2 i =>
    match o.kvs[i]? with
    | none => (o, .done none)
    | some kv => (o, if E.keyMatch kv.1 name then .done (some i) else .scan2 (i + 1))
  | .done r => (o, .done r)

/-- The object, and the goroutines: the name each looks up and where it is. -/
structure Sys (α : Type) where
  obj : Obj α
  ts : List (Bytes × Pc)

/-- Goroutine `j` does a step. -/
def Sys.step (E : Env) (s : Sys α) (j : Nat) : Sys α :=
  match s.ts[j]? with
  | none => s
  | some (name, pc) =>
    let (o, pc) := Conc.step E name s.obj pc
    { obj := o, ts := s.ts.set j (name, pc) }

/-- A schedule: which goroutine does each step. -/
def Sys.run (E : Env) (s : Sys α) (sched : List Nat) : Sys α := sched.foldl (Sys.step E) s

/-- All goroutines begin. -/
def Sys.init (ku : Bool) (kvs : List (Bytes × α)) (names : List Bytes) : Sys α :=
  { obj := { ku := ku, kvs := kvs }, ts := names.map (fun n => (n, .start)) }

/-- The answer of goroutine `j`, once it has returned. -/
def Sys.answer (s : Sys α) (j : Nat) : Option (Option Nat) :=
  match s.ts[j]? with
  | some (_, .done r) => some r
  | _ => none

/-! ## Reading a string -/

/-- What goroutines share: a value of type `VT_String` or `VT_RawString`. -/
structure Str where
  /-- `DataType` is `VT_RawString`. -/
  raw : Bool
  /-- `fstrvalue`. -/
  s : Bytes

/-- Where a goroutine is in `String` (dxvalue.go:707-758). -/
inductive SPc
  /-- The switch, line 708. -/
  | start
  /-- Line 751: set the type. -/
  | setType
  /-- Line 752: read the string. -/
  | rd
  /-- Line 752: write the string; this one was read. -/
  | wr (s : Bytes)
  /-- Line 725 (753): read the string that is returned. -/
  | ret
  /-- Returned. -/
  | done (r : Bytes)
deriving DecidableEq

/-- One step of a goroutine in `String`. -/
def sstep (E : Env) (o : Str) : SPc → Str × SPc
  | .start => (o, if o.raw then .setType else .ret)
  | .setType => ({ o with raw := false }, .rd)
  | .rd => (o, .wr o.s)
  | .wr s => ({ o with s := E.unesc s }, .ret)
  | .ret => (o, .done o.s)
  | .done r => (o, .done r)

/-- The value and the goroutines. -/
structure SSys where
  obj : Str
  ts : List SPc

/-- Goroutine `j` does a step. -/
def SSys.step (E : Env) (s : SSys) (j : Nat) : SSys :=
  match s.ts[j]? with
  | none => s
  | some pc =>
    let (o, pc) := sstep E s.obj pc
    { obj := o, ts := s.ts.set j pc }

/-- A schedule: which goroutine does each step. -/
def SSys.run (E : Env) (s : SSys) (sched : List Nat) : SSys := sched.foldl (SSys.step E) s

/-- `n` goroutines begin. -/
def SSys.init (raw : Bool) (s : Bytes) (n : Nat) : SSys := { obj := { raw := raw, s := s }, ts := List.replicate n .start }

/-- The answer of goroutine `j`, once it has returned. -/
def SSys.answer (s : SSys) (j : Nat) : Option Bytes :=
  match s.ts[j]? with
  | some (.done r) => some r
  | _ => none

end Dxs.Conc
