import Verif.Heap.Copy

/-!
# The remaining readers of dxvalue.go

Times, durations, the readers by index and `Visit`.

Simplification: `time.ParseInLocation`, `time.ParseDuration` and the conversions between `TDateTime` and `time.Time` are parameters (`Clock`).
-/

namespace Dxs.Heap

/-- The functions of the packages time and DxCommonLib about times. `τ` stands for `time.Time`. -/
structure Clock (τ : Type) where
  /-- `time.ParseInLocation` with the layouts of dxvalue.go:960, 962, 964 (the same at 976, 978, 980), numbered 0, 1, 2. -/
  parse : Fin 3 → Bytes → Option τ
  /-- `DxCommonLib.Time2DelphiTime`. -/
  delphi : τ → F64
  /-- `TDateTime.ToTime`. -/
  toTime : F64 → τ
  /-- `time.Time{}`. -/
  zero : τ
  /-- `time.ParseDuration`. -/
  duration : Bytes → Option (BitVec 64)

/-- The three attempts to read a time, dxvalue.go:960-966 and 976-982. -/
def Clock.read {τ : Type} (C : Clock τ) (s : Bytes) : Option τ :=
  match C.parse 0 s with
  | some t => some t
  | none =>
    match C.parse 1 s with
    | some t => some t
    | none => C.parse 2 s

/-- `DateTime`, dxvalue.go:955-969. The float64 -1 is 0xbff0000000000000. -/
def getDateTime {τ : Type} (E : Env) (C : Clock τ) (n : Node) : F64 :=
  match n.dt with
  | .int | .double | .float | .dateTime => getDouble E n
  | .string | .rawString =>
    match C.read n.str with
    | some t => C.delphi t
    | none => 0xbff0000000000000
  | _ => 0xbff0000000000000

/-- `GoTime`, dxvalue.go:971-985. -/
def getGoTime {τ : Type} (E : Env) (C : Clock τ) (n : Node) : τ :=
  match n.dt with
  | .int | .float | .double | .dateTime => C.toTime (getDouble E n)
  | .string | .rawString =>
    match C.read n.str with
    | some t => t
    | none => C.zero
  | _ => C.zero

/-- `Duration`, dxvalue.go:942-953: the duration and the node afterwards (`String` unescapes a raw string in place). -/
def getDuration {τ : Type} (E : Env) (C : Clock τ) (n : Node) (dflt : BitVec 64) : BitVec 64 × Node :=
  match n.dt with
  | .string | .rawString =>
    match getString E .panic n with
    | (.ok s, n) => ((C.duration s).getD dflt, n)
    | (_, n) => (dflt, n)
  | .int => (getInt E n, n)
  | _ => (dflt, n)

/-- `IntByIndex`, `BoolByIndex`, `FloatByIndex`, `DoubleByIndex`, dxvalue.go:1263-1301, with the getter as `read`. -/
def byIndex {α : Type} (read : Node → α) (h : Heap) (p : Ptr) (idx : Int) (dflt : α) : α :=
  match valueByIndex (h.mem p) idx with
  | some q => read (h.mem q)
  | none => dflt

/-- `StringByIndex`, dxvalue.go:1271-1277; `json` as in `getString`. -/
def stringByIndex (E : Env) (json : Res Bytes) (h : Heap) (p : Ptr) (idx : Int) (dflt : Bytes) : Res Bytes × Heap :=
  match valueByIndex (h.mem p) idx with
  | some q => let r := getString E json (h.mem q); (r.1, h.set q r.2)
  | none => (.ok dflt, h)

/-- The loops of `Visit`, dxvalue.go:1328-1339: round `i` reads the list again (`list`), so the callback may change it. The callback has a state
of its own and may change the memory. -/
def visitLoop {σ : Type} (list : Node → List (Bytes × Option Ptr)) (f : Bytes → Option Ptr → σ × Heap → Bool × (σ × Heap)) (p : Ptr) :
    Nat → Nat → σ × Heap → Res (σ × Heap)
  | 0, _, _ => .loop
  | fuel + 1, i, s =>
    match (list (s.2.mem p))[i]? with
    | none => .ok s
    | some (k, q) =>
      match f k q s with
      | (true, s) => visitLoop list f p fuel (i + 1) s
      | (false, s) => .ok s

/-- `Visit`, dxvalue.go:1326-1341. -/
def visit {σ : Type} (f : Bytes → Option Ptr → σ × Heap → Bool × (σ × Heap)) (fuel : Nat) (p : Ptr) (s : σ × Heap) : Res (σ × Heap) :=
  match (s.2.mem p).dt with
  | .object => visitLoop Node.kvs f p fuel 0 s
  | .array => visitLoop (fun n => n.arr.map (fun q => ([], q))) f p fuel 0 s
  | _ => .ok s

end Dxs.Heap
