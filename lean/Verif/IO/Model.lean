import Verif.Json.Model

/-!
# Files

`ReadFile` (iofiles.go), `Value2File` and `NewValueFromJsonFile` (jsonparse.go), `SaveBinaryToFile` (bin_value.go).
What the operating system does is a parameter. `int` has 64 bits.
-/

namespace Dxs.IO

/-! ## Reading -/

/-- The operating system and the Go runtime, while one file is read. -/
structure Os where
  /-- `f.Stat()`: the size it reports, or an error. -/
  stat : Option (BitVec 64)
  /-- The number of bytes the `i`-th `Read` would like to give. -/
  want : Nat → Nat
  /-- Does the `i`-th `Read` report the end together with the last bytes? -/
  early : Nat → Bool
  /-- Does the `i`-th `Read` fail? -/
  fail : Nat → Bool
  /-- What the `i`-th `Read` does to the bytes of the buffer that it was given but did not fill. -/
  scratch : Nat → UInt8 → UInt8
  /-- How much more than one byte `append` adds to a full slice of this capacity. -/
  extra : Nat → Nat

/-- `f.Read` into `k` bytes with `rem` unread: the number of bytes, and the error (`some true`: `io.EOF`). `os.File.Read` never
returns `0, nil` for a buffer that is not empty; for an empty one it does. -/
def read (o : Os) (i k : Nat) (rem : Bytes) : Nat × Option Bool :=
  if o.fail i then (min (o.want i) (min k rem.length), some false)
  else if k = 0 then (0, none)
  else if rem = [] then (0, some true)
  else
    let n := max 1 (min (o.want i) (min k rem.length))
    (n, if n = rem.length ∧ o.early i then some true else none)

/-- The loop of `ReadFile`, iofiles.go:35-47. `buf` is the whole slice up to its capacity, `len` its length. The result is the data
and whether there is an error. -/
def readLoop (o : Os) : Nat → Nat → Bytes → Nat → Bytes → Res (Bytes × Bool)
  | 0, _, _, _, _ => .loop
  | f + 1, i, buf, len, rem =>
    let buf := if buf.length ≤ len then buf ++ 0 :: List.replicate (o.extra buf.length) 0 else buf
    let (n, e) := read o i (buf.length - len) rem
    let buf := buf.take len ++ rem.take n ++ (buf.drop (len + n)).map (o.scratch i)
    match e with
    | some eof => .ok (buf.take (len + n), !eof)
    | none => readLoop o f (i + 1) buf (len + n) (rem.drop n)

/-- The first capacity, iofiles.go:16-33. -/
def firstCap (stat : Option (BitVec 64)) : Nat :=
  let size := stat.getD 0 + 1
  if size.slt 512 then 512 else size.toNat

/-- `ReadFile`, iofiles.go:9-48, of a file with these contents (`none`: it cannot be opened). -/
def readFile (o : Os) (f : Nat) (file : Option Bytes) : Res (Bytes × Bool) :=
  match file with
  | none => .ok ([], true)
  | some b => readLoop o f 0 (List.replicate (firstCap o.stat) 0) 0 b

/-- The mark at the start of a file. -/
def bom : Bytes := [0xEF, 0xBB, 0xBF]

/-- jsonparse.go:846-848 and yamlparse.go:538-540. -/
def stripBom (b : Bytes) : Bytes := if 2 < b.length ∧ b.take 3 = bom then b.drop 3 else b

/-- `NewValueFromJsonFile`, jsonparse.go:841-850; `none`: the error of `ReadFile`. -/
def newValueFromJsonFile (E : Env) (o : Os) (f : Nat) (file : Option Bytes) : Res (Option Val) := do
  let (b, e) ← readFile o f file
  if e then .ok none
  else do
    let v ← Json.newValueFromJson E (stripBom b)
    .ok (some v)

/-! ## Writing -/

/-- What is done to the file. -/
inductive Act
  /-- `os.OpenFile` with `O_CREATE | O_TRUNC`. -/
  | trunc
  /-- `file.Write`, at the end of what was written. -/
  | write (b : Bytes)
deriving DecidableEq, Repr

/-- The file after an action that is not interrupted (`none`: there is no file). -/
def Act.run : Act → Option Bytes → Option Bytes
  | .trunc, _ => some []
  | .write b, c => c.map (· ++ b)

/-- The text of `Value2File`, jsonparse.go:858-863. -/
def fileText (E : Env) (fmt : Bool) (v : Val) : Res Bytes :=
  if fmt then Json.value2FormatJson E .onlyAnsi false v else Json.value2Json E .onlyAnsi false v

/-- The actions of `Value2File`, jsonparse.go:852-868, in order, and how it ends. -/
def value2FileActs (E : Env) (bomFile fmt : Bool) (v : Val) : List Act × Res Unit :=
  let start := .trunc :: if bomFile then [.write bom] else []
  match fileText E fmt v with
  | .ok t => (start ++ [.write t], .ok ())
  | .err e => (start, .err e)
  | .panic => (start, .panic)
  | .loop => (start, .loop)

/-- The file when the process stops: before an action, or in a write after some bytes. -/
inductive Crash : List Act → Option Bytes → Option Bytes → Prop
  | stop (l c) : Crash l c c
  | part (b l c) (n : Nat) : Crash (.write b :: l) (some c) (some (c ++ b.take n))
  | step {a l c c'} : Crash l (a.run c) c' → Crash (a :: l) c c'

/-- `file.Write` that fails after `n` bytes (`some n`) or succeeds: whether there is an error, and the file. -/
def writeFail (fail : Option Nat) (b c : Bytes) : Bool × Bytes :=
  match fail with
  | none => (false, c ++ b)
  | some n => (true, c ++ b.take n)

/-- `Value2File`, jsonparse.go:852-868, with writes that may fail (`fail1`: the mark, `fail2`: the text) and an open that may fail:
whether an error is returned, and the file. -/
def value2File (E : Env) (bomFile fmt : Bool) (v : Val) (openFail : Bool) (fail1 fail2 : Option Nat) (old : Option Bytes) : Res (Bool × Option Bytes) :=
  if openFail then .ok (true, old)
  else do
    let c := if bomFile then (writeFail fail1 bom []).2 else []
    let t ← fileText E fmt v
    let (e, c) := writeFail fail2 t c
    .ok (e, some c)

/-! ## Binaries -/

/-- The flags of `os.OpenFile`. -/
structure Flags where
  wronly : Bool
  create : Bool
  trunc : Bool
deriving DecidableEq

/-- The file after `os.OpenFile`; `none`: error. -/
def openFile (fl : Flags) (old : Option Bytes) : Option Bytes :=
  match old with
  | none => if fl.create then some [] else none
  | some c => if fl.trunc then some [] else some c

/-- One write to a file that was opened so: without `O_WRONLY` it is open for reading and every write fails (`EBADF`). -/
def writeTo (fl : Flags) (fail : Option Nat) (b c : Bytes) : Bool × Bytes :=
  if fl.wronly then writeFail fail b c else (true, c)

/-- The flags of `SaveBinaryToFile`, bin_value.go:79. -/
def saveFlags : Flags := { wronly := false, create := true, trunc := true }

/-- `SaveBinaryToFile`, bin_value.go:77-94: error, and the file. -/
def saveBinary (v : Val) (fail : Option Nat) (old : Option Bytes) : Bool × Option Bytes :=
  match v with
  | .bin _ b =>
    match openFile saveFlags old with
    | none => (true, old)
    | some c => let (e, c) := writeTo saveFlags fail b c; (e, some c)
  | .exbin _ b =>
    match openFile saveFlags old with
    | none => (true, old)
    | some c => if 0 < b.length then let (e, c) := writeTo saveFlags fail (b.drop 1) c; (e, some c) else (false, some c)
  | _ => (false, old)

end Dxs.IO
