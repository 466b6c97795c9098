import Verif.Json.Model

/-!
# Nodes, caches and the pool (dxvalue.go:146-353, cache.go)

A `*DxValue` is a pointer into a memory of nodes. The five package-level constants (jsonparse.go:402-406,
`valueTrue`, `valueFalse`, `valueNAN`, `valueINF`, `valueNull`) are the pointers 0..4.

Simplifications:
* A nil and an empty slice are the same (no operation of the package distinguishes them, except that `Reset` and
  `NewObject` allocate capacity).
* Two nodes never share the backing arrays of `strkvs`, `farr`, `fbinary`. In the code this can happen only through the
  growth of a cache (`append` copies the structs); the copies are not reachable before the cache is reset.
* Capacity of `strkvs`: members beyond the length are not modelled (`getKv` overwrites both fields of the member it
  exposes, except in the JSON loader when it fails, which is treated there).
-/

namespace Dxs.Heap

/-- A `*DxValue` that is not nil. -/
notation "Ptr" => Nat
/-- A `*ValueCache` that is not nil. -/
notation "CId" => Nat

/-- `valueNull`, `valueTrue`, `valueFalse`, `valueNAN`, `valueINF` (jsonparse.go:402-406). -/
def nullP : Ptr := 0
def trueP : Ptr := 1
def falseP : Ptr := 2
def nanP : Ptr := 3
def infP : Ptr := 4

/-- `ReadOnly`, dxvalue.go:891-893. -/
def shared (p : Ptr) : Bool := p < 5

/-- `DxValue`, dxvalue.go:146-155. -/
structure Node where
  dt : VT
  ext : UInt8
  ku : Bool
  kvs : List (Bytes × Option Ptr)
  owner : Option CId
  cell : BitVec 64
  str : Bytes
  bin : Bytes
  arr : List (Option Ptr)
deriving DecidableEq, Repr

/-- `DxValue{}`. -/
def Node.zero : Node := ⟨.object, 0, false, [], none, 0, [], [], []⟩

/-- `ValueCache`, cache.go:11-14: `slots` are the addresses `&Value[0]`, ..., `&Value[cap-1]`, `len` is `len(Value)`. -/
structure Cache where
  isroot : Bool
  slots : List Ptr
  len : Nat
deriving DecidableEq, Repr

/-- The memory. `next`/`nextC`: first unused addresses. `pool`: the contents of `ValueCachePool`. `grow`: the capacity
`append` chooses for a full slice of the given length (any function; at least one more is enforced below). -/
structure Heap where
  mem : Ptr → Node
  next : Nat
  caches : CId → Cache
  nextC : Nat
  pool : List CId
  grow : Nat → Nat

/-- Overwrite a node. -/
def Heap.set (h : Heap) (p : Ptr) (n : Node) : Heap := { h with mem := fun q => if q = p then n else h.mem q }

/-- Overwrite a cache. -/
def Heap.setC (h : Heap) (c : CId) (x : Cache) : Heap := { h with caches := fun d => if d = c then x else h.caches d }

/-- Change a node in place. -/
def Heap.upd (h : Heap) (p : Ptr) (f : Node → Node) : Heap := h.set p (f (h.mem p))

/-- `new(DxValue)` with contents. -/
def Heap.new (h : Heap) (n : Node) : Ptr × Heap := (h.next, { (h.set h.next n) with next := h.next + 1 })

/-- The start of the program. -/
def Heap.init (grow : Nat → Nat) : Heap where
  mem p := { Node.zero with dt := if p = nullP then .null else if p = trueP then .true else if p = falseP then .false
                                  else if p = nanP then .nan else if p = infP then .inf else .object }
  next := 5
  caches _ := ⟨false, [], 0⟩
  nextC := 0
  pool := []
  grow := grow

/-- What `Reset` leaves in a node (dxvalue.go:322-352): everything but the owner and the scalar cell is cleared. -/
def Node.reset (n : Node) (dt : VT) : Node := { n with dt := dt, ext := 0, ku := false, kvs := [], arr := [], bin := [], str := [] }

/-- `Reset`, dxvalue.go:318-353. -/
def reset (h : Heap) (p : Ptr) (dt : VT) : Heap := if shared p then h else h.upd p (·.reset dt)

/-- `ValueCache.Reset`, cache.go:55-61. -/
def cacheReset (h : Heap) (c : CId) (toRoot : Bool) : Heap :=
  h.setC c { h.caches c with len := if toRoot then 0 else 1 }

/-- `Clear`, dxvalue.go:196-215: the fields. -/
def Node.clear (n : Node) : Node :=
  match n.dt with
  | .object => { n with ku := false, kvs := [], bin := [], str := [] }
  | _ => { n with ku := false, kvs := [], arr := [], bin := [], str := [] }

/-- `Clear`, dxvalue.go:192-216. -/
def clear (h : Heap) (p : Ptr) : Heap :=
  let h := match (h.mem p).owner with
    | some c => cacheReset h c false
    | none => h
  h.upd p Node.clear

/-- `make([]DxValue, 0, n)`: `n` new zero nodes. -/
def newSlots (h : Heap) (n : Nat) : List Ptr × Heap :=
  ((List.range n).map (h.next + ·),
   { h with mem := fun q => if h.next ≤ q ∧ q < h.next + n then Node.zero else h.mem q, next := h.next + n })

/-- A new cache with capacity 8, cache.go:18-21, 44-47. -/
def newCache (h : Heap) (isroot : Bool) (len : Nat) : CId × Heap :=
  let (s, h) := newSlots h 8
  (h.nextC, { (h.setC h.nextC ⟨isroot, s, len⟩) with nextC := h.nextC + 1 })

/-- `append(c.Value, DxValue{})` on a full slice, cache.go:29: a bigger array, the old nodes are copied; the pointers
handed out before keep pointing into the old array. -/
def growCache (h : Heap) (c : CId) : Heap :=
  let x := h.caches c
  let n := x.slots.length
  let cap := max (h.grow n) (n + 1)
  let s := (List.range cap).map (h.next + ·)
  let h' := { h with
    mem := fun q => if h.next ≤ q ∧ q < h.next + cap then
        (match x.slots[q - h.next]? with | some o => h.mem o | none => Node.zero) else h.mem q,
    next := h.next + cap }
  h'.setC c { x with slots := s }

/-- `getValue`, cache.go:16-38. The result is never nil. -/
def getValue (h : Heap) (c : Option CId) (t : VT) : Ptr × Heap :=
  match c with
  | none =>
    let (c, h) := newCache h false 1
    let p := ((h.caches c).slots[0]?).getD 0
    (p, h.set p { Node.zero with dt := t, owner := some c })
  | some c =>
    let h := if (h.caches c).len < (h.caches c).slots.length then h else growCache h c
    let x := h.caches c
    let p := (x.slots[x.len]?).getD 0
    let h := h.setC c { x with len := x.len + 1 }
    let h := reset h p t
    if x.isroot then
      let h := h.setC c { h.caches c with isroot := false }
      (p, h.upd p (fun n => { n with owner := some c }))
    else (p, h)

/-- `getCache`, cache.go:40-53. `sync.Pool.Get` may return any element or nil: `pick` decides. -/
def getCache (h : Heap) (pick : Option Nat) : CId × Heap :=
  match pick.bind (h.pool[·]?) with
  | none => newCache h true 0
  | some c =>
    let h := { h with pool := h.pool.eraseIdx (pick.getD 0) }
    (c, h.setC c { h.caches c with isroot := true })

/-- `FreeValue`, cache.go:64-75. -/
def freeValue (h : Heap) (v : Option Ptr) : Heap :=
  match v with
  | none => h
  | some p =>
    let h := clear h p
    let c := (h.mem p).owner
    let h := h.upd p (fun n => { n with owner := none })
    match c with
    | none => h
    | some c => let h := cacheReset h c true; { h with pool := c :: h.pool }

/-- The constant for a type that has one: the switches dxvalue.go:158-169, 242-253. -/
def constOf : VT → Option Ptr
  | .true => some trueP | .false => some falseP | .null => some nullP | .inf => some infP | .nan => some nanP
  | _ => none

/-- `NewValue`, dxvalue.go:157-173. -/
def newValue (h : Heap) (t : VT) : Ptr × Heap :=
  match constOf t with
  | some p => (p, h)
  | none =>
    let (p, h) := h.new Node.zero
    (p, reset h p t)

/-- `NewCacheValue`, dxvalue.go:241-257. -/
def newCacheValue (h : Heap) (t : VT) (pick : Option Nat) : Ptr × Heap :=
  match constOf t with
  | some p => (p, h)
  | none =>
    let (c, h) := getCache h pick
    getValue h (some c) t

/-- `NewObject`, dxvalue.go:218-228. -/
def newObject (h : Heap) (cached : Bool) (pick : Option Nat) : Ptr × Heap :=
  if cached then newCacheValue h .object pick else h.new { Node.zero with dt := .object }

/-- `NewArray`, dxvalue.go:230-239. -/
def newArray (h : Heap) (cached : Bool) (pick : Option Nat) : Ptr × Heap :=
  if cached then newCacheValue h .array pick else h.new { Node.zero with dt := .array }

/-! ## Objects -/

/-- `indexByName` on the members of a node, dxvalue.go:99-115. -/
def objIndex (E : Env) (h : Heap) (p : Ptr) (name : Bytes) : Option Nat × Heap :=
  let n := h.mem p
  let r := indexByName E n.ku n.kvs name
  (r.1, h.set p { n with ku := r.2.1, kvs := r.2.2 })

/-- `VObject.ValueByName`, dxvalue.go:117-133: the same search, then the value. -/
def objGet (E : Env) (h : Heap) (p : Ptr) (name : Bytes) : Option Ptr × Heap :=
  let (i, h) := objIndex E h p name
  (i.bind fun i => ((h.mem p).kvs[i]?).bind Prod.snd, h)

/-- `RemoveKey`, dxvalue.go:637-641, 58-75. -/
def removeKey (E : Env) (h : Heap) (p : Ptr) (name : Bytes) : Heap :=
  if (h.mem p).dt = .object then
    let (i, h) := objIndex E h p name
    match i with
    | some i => h.upd p (fun n => { n with kvs := n.kvs.eraseIdx i })
    | none => h
  else h

/-- `ExtractValue`, dxvalue.go:643-648, 77-97. -/
def extractValue (E : Env) (h : Heap) (p : Ptr) (name : Bytes) : Option Ptr × Heap :=
  if (h.mem p).dt = .object then
    let (i, h) := objIndex E h p name
    match i with
    | some i => (((h.mem p).kvs[i]?).bind Prod.snd, h.upd p (fun n => { n with kvs := n.kvs.eraseIdx i }))
    | none => (none, h)
  else (none, h)

/-- `StrToIntDef(Name, -1)`. -/
def strIdx (E : Env) (name : Bytes) : Int := ((E.strToInt name).map BitVec.toInt).getD (-1)

/-- `xs[idx]` for an index that may be negative or too big: the test `idx >= 0 && idx < len`. -/
def inRange (idx : Int) (n : Nat) : Bool := 0 ≤ idx && idx < n

/-- `ValueByName`, dxvalue.go:1021-1035. -/
def valueByName (E : Env) (h : Heap) (p : Ptr) (name : Bytes) : Option Ptr × Heap :=
  match (h.mem p).dt with
  | .object => objGet E h p name
  | .array =>
    let idx := strIdx E name
    if inRange idx (h.mem p).arr.length then (((h.mem p).arr[idx.toNat]?).bind id, h) else (none, h)
  | _ => (none, h)

/-- `ValueByPath`, dxvalue.go:1037-1050, on a non-nil value. -/
def valueByPath (E : Env) (h : Heap) (p : Ptr) : List Bytes → Option Ptr × Heap
  | [] => (some p, h)
  | key :: path =>
    match valueByName E h p key with
    | (none, h) => (none, h)
    | (some q, h) => valueByPath E h q path

/-! ## Arrays -/

/-- `SetIndexCached`, dxvalue.go:1217-1241. -/
def setIndexCached (h : Heap) (p : Ptr) (idx : Int) (t : VT) (c : Option CId) : Ptr × Heap :=
  let h := if (h.mem p).dt = .array then h else reset h p .array
  let l := (h.mem p).arr.length
  if inRange idx l then
    match ((h.mem p).arr[idx.toNat]?).bind id with
    | some q =>
      if (h.mem q).dt ≠ t then
        if shared q then
          let (q, h) := getValue h c t
          (q, h.upd p (fun n => { n with arr := n.arr.set idx.toNat (some q) }))
        else (q, reset h q t)
      else (q, h)
    | none =>
      let (q, h) := getValue h c t
      (q, h.upd p (fun n => { n with arr := n.arr.set idx.toNat (some q) }))
  else
    let (q, h) := getValue h c t
    (q, h.upd p (fun n => { n with arr := n.arr ++ [some q] }))

/-- `SetIndex`, dxvalue.go:1208-1210. -/
def setIndex (h : Heap) (p : Ptr) (idx : Int) (t : VT) : Ptr × Heap := setIndexCached h p idx t (h.mem p).owner

/-- `SetIndexValue`, dxvalue.go:1180-1190. -/
def setIndexValue (h : Heap) (p : Ptr) (idx : Int) (v : Option Ptr) : Heap :=
  let h := if (h.mem p).dt = .array then h else reset h p .array
  let l := (h.mem p).arr.length
  if inRange idx l then h.upd p (fun n => { n with arr := n.arr.set idx.toNat v })
  else h.upd p (fun n => { n with arr := n.arr ++ [v] })

/-- `InsertValue`, dxvalue.go:1243-1262. -/
def insertValue (h : Heap) (p : Ptr) (idx : Int) (t : VT) : Ptr × Heap :=
  let h := if (h.mem p).dt = .array then h else reset h p .array
  let (q, h) := newValue h t
  let l := (h.mem p).arr.length
  let idx := if idx < 0 then 0 else idx
  if idx < l then
    let rarr := (h.mem p).arr.drop idx.toNat
    (q, h.upd p (fun n => { n with arr := n.arr.take idx.toNat ++ [some q] ++ rarr }))
  else (q, h.upd p (fun n => { n with arr := n.arr ++ [some q] }))

/-- `Append`, dxvalue.go:1212-1214: `math.MaxInt32` as index. -/
def append (h : Heap) (p : Ptr) (t : VT) : Ptr × Heap := insertValue h p 2147483647 t

/-- `RemoveIndex`, dxvalue.go:650-654. -/
def removeIndex (h : Heap) (p : Ptr) (idx : Int) : Heap :=
  if (h.mem p).dt = .array ∧ inRange idx (h.mem p).arr.length then
    h.upd p (fun n => { n with arr := n.arr.take idx.toNat ++ n.arr.drop (idx.toNat + 1) })
  else h

/-! ## Keys -/

/-- `SetKeyCached`, dxvalue.go:1126-1151. An existing member that is nil panics (`result.DataType`). -/
def setKeyCached (E : Env) (h : Heap) (p : Ptr) (name : Bytes) (t : VT) (c : Option CId) : Res (Ptr × Heap) :=
  if (h.mem p).dt = .array ∧ strIdx E name ≠ -1 then .ok (setIndex h p (strIdx E name) t)
  else
    let h := if (h.mem p).dt = .object then h else reset h p .object
    let (i, h) := objIndex E h p name
    match i with
    | some i =>
      match ((h.mem p).kvs[i]?).bind Prod.snd with
      | none => .panic
      | some q =>
        if shared q then
          let (q, h) := getValue h c t
          .ok (q, h.upd p (fun n => { n with kvs := n.kvs.modify i (fun kv => (kv.1, some q)) }))
        else if (h.mem q).dt ≠ t then .ok (q, reset h q t)
        else .ok (q, h)
    | none =>
      let (q, h) := getValue h c t
      .ok (q, h.upd p (fun n => { n with kvs := n.kvs ++ [(name, some q)] }))

/-- `SetKey`, dxvalue.go:1153-1155. -/
def setKey (E : Env) (h : Heap) (p : Ptr) (name : Bytes) (t : VT) : Res (Ptr × Heap) :=
  setKeyCached E h p name t (h.mem p).owner

/-- `SetKeyValue`, dxvalue.go:1159-1178. -/
def setKeyValue (E : Env) (h : Heap) (p : Ptr) (name : Bytes) (v : Option Ptr) : Heap :=
  if (h.mem p).dt = .array ∧ strIdx E name ≠ -1 then setIndexValue h p (strIdx E name) v
  else
    let h := if (h.mem p).dt = .object then h else reset h p .object
    let (i, h) := objIndex E h p name
    match i with
    | some i => h.upd p (fun n => { n with kvs := n.kvs.modify i (fun kv => (kv.1, v)) })
    | none => h.upd p (fun n => { n with kvs := n.kvs ++ [(name, v)] })

/-! ## Scalars -/

/-- `SetInt`, dxvalue.go:700-705. -/
def setInt (h : Heap) (p : Ptr) (x : BitVec 64) : Heap :=
  let h := if (h.mem p).dt = .int then h else reset h p .int
  h.upd p (fun n => { n with cell := x })

/-- `SetString`, dxvalue.go:814-819. -/
def setString (h : Heap) (p : Ptr) (s : Bytes) : Heap :=
  let h := if (h.mem p).dt = .string then h else reset h p .string
  h.upd p (fun n => { n with str := s })

/-- `SetBool`, dxvalue.go:895-904. -/
def setBool (h : Heap) (p : Ptr) (b : Bool) : Heap :=
  if shared p then h else if b then reset h p .true else reset h p .false

/-- `SetDouble`, dxvalue.go:987-995. -/
def setDouble (h : Heap) (p : Ptr) (x : F64) : Heap :=
  if shared p then h
  else
    let h := if (h.mem p).dt ≠ .double ∧ (h.mem p).dt ≠ .dateTime then reset h p .double else h
    h.upd p (fun n => { n with cell := x })

/-- `SetTime` and `SetDelphiTime`, dxvalue.go:997-1009 (`x` is the TDateTime). -/
def setTime (h : Heap) (p : Ptr) (x : F64) : Heap :=
  let h := if (h.mem p).dt ≠ .double ∧ (h.mem p).dt ≠ .dateTime then reset h p .dateTime else h
  h.upd p (fun n => { n with cell := x })

/-- `SetFloat`, dxvalue.go:1011-1019: writes four of the eight bytes. -/
def setFloat (h : Heap) (p : Ptr) (x : F32) : Heap :=
  if shared p then h
  else
    let h := if (h.mem p).dt ≠ .float then reset h p .float else h
    h.upd p (fun n => { n with cell := setLo32 n.cell x })

/-- `Int`, dxvalue.go:535-551. -/
def getInt (E : Env) (n : Node) : BitVec 64 :=
  match n.dt with
  | .true => 1
  | .int => n.cell
  | .double | .dateTime => E.f64toI n.cell
  | .float => E.f32toI (lo32 n.cell)
  | .string | .rawString => (E.strToInt n.str).getD 0
  | _ => 0

/-- The bytes of `true`. -/
def trueBytes : Bytes := [116, 114, 117, 101]

/-- `Bool`, dxvalue.go:878-889: for all numbers the cell is read as an int64. -/
def getBool (E : Env) (n : Node) : Bool :=
  match n.dt with
  | .int | .float | .double | .dateTime => n.cell.toInt > 0
  | .true => Bool.true
  | .string | .rawString => E.equalFold n.str trueBytes
  | _ => Bool.false

/-- `Double`, dxvalue.go:906-922. The float64 1 is 0x3ff0000000000000. -/
def getDouble (E : Env) (n : Node) : F64 :=
  match n.dt with
  | .true => 0x3ff0000000000000
  | .int => E.i64to64 n.cell
  | .double | .dateTime => n.cell
  | .float => E.f32to64 (lo32 n.cell)
  | .string | .rawString => (E.strToFloat n.str).getD 0
  | _ => 0

/-- `Float`, dxvalue.go:924-940. The float32 1 is 0x3f800000. -/
def getFloat (E : Env) (n : Node) : F32 :=
  match n.dt with
  | .true => 0x3f800000
  | .int => E.i64to32 n.cell
  | .double | .dateTime => E.f64to32 n.cell
  | .float => lo32 n.cell
  | .string | .rawString => E.f64to32 ((E.strToFloat n.str).getD 0)
  | _ => 0

/-- `String`, dxvalue.go:707-758: the text and the node afterwards (a raw string is unescaped in place). `json` stands for
the text `Value2FormatJson` gives for an object or array. -/
def getString (E : Env) (json : Res Bytes) (n : Node) : Res Bytes × Node :=
  match n.dt with
  | .int => (.ok (decInt n.cell.toInt), n)
  | .true => (.ok trueBytes, n)
  | .false => (.ok [102, 97, 108, 115, 101], n)
  | .double => (.ok (E.fmtFloat n.cell), n)
  | .float => (.ok (E.fmtFloat (E.f32to64 (lo32 n.cell))), n)
  | .dateTime => (.ok (E.fmtTime n.cell), n)
  | .string => (.ok n.str, n)
  | .null => (.ok [110, 117, 108, 108], n)
  | .binary => (Json.binText E n.ext n.bin, n)
  | .rawString => (.ok (E.unesc n.str), { n with dt := .string, str := E.unesc n.str })
  | .object | .array => (json, n)
  | _ => (.ok [], n)

/-- `Count`, dxvalue.go:788-797. -/
def count (n : Node) : Nat :=
  match n.dt with
  | .array => n.arr.length
  | .object => n.kvs.length
  | _ => 0

/-- `ValueByIndex`, dxvalue.go:1303-1315. -/
def valueByIndex (n : Node) (idx : Int) : Option Ptr :=
  match n.dt with
  | .object => if inRange idx n.kvs.length then (n.kvs[idx.toNat]?).bind Prod.snd else none
  | .array => if inRange idx n.arr.length then (n.arr[idx.toNat]?).bind id else none
  | _ => none

/-- `KeyNameByIndex`, dxvalue.go:1317-1324. -/
def keyNameByIndex (n : Node) (idx : Int) : Bytes :=
  match n.dt with
  | .object => if inRange idx n.kvs.length then ((n.kvs[idx.toNat]?).map Prod.fst).getD [] else []
  | _ => []

/-- `Items`, dxvalue.go:799-812: unescapes the keys first. -/
def items (E : Env) (h : Heap) (p : Ptr) (idx : Int) : (Bytes × Option Ptr) × Heap :=
  let n := h.mem p
  match n.dt with
  | .array => if inRange idx n.arr.length then (([], (n.arr[idx.toNat]?).bind id), h) else (([], none), h)
  | .object =>
    if inRange idx n.kvs.length then
      let n' := { n with ku := true, kvs := unescKeys E n.ku n.kvs }
      (((n'.kvs[idx.toNat]?).getD ([], none)), h.set p n')
    else (([], none), h)
  | _ => (([], none), h)

/-! ## The setters that combine a position with a value, dxvalue.go:821-876 -/

/-- `SetKeyString`, dxvalue.go:821-823. -/
def setKeyString (E : Env) (h : Heap) (p : Ptr) (name s : Bytes) : Res Heap := do
  let (q, h) ← setKey E h p name .string
  .ok (h.upd q (fun n => { n with str := s }))

/-- `SetIndexString`, dxvalue.go:825-827. -/
def setIndexString (h : Heap) (p : Ptr) (idx : Int) (s : Bytes) : Heap :=
  let (q, h) := setIndex h p idx .string
  h.upd q (fun n => { n with str := s })

/-- `SetKeyInt`, dxvalue.go:833-835. -/
def setKeyInt (E : Env) (h : Heap) (p : Ptr) (name : Bytes) (x : BitVec 64) : Res Heap := do
  let (q, h) ← setKey E h p name .int
  .ok (setInt h q x)

/-- `SetIndexInt`, dxvalue.go:837-839. -/
def setIndexInt (h : Heap) (p : Ptr) (idx : Int) (x : BitVec 64) : Heap :=
  let (q, h) := setIndex h p idx .int
  setInt h q x

/-- `SetKeyFloat`, dxvalue.go:841-843. -/
def setKeyFloat (E : Env) (h : Heap) (p : Ptr) (name : Bytes) (x : F32) : Res Heap := do
  let (q, h) ← setKey E h p name .float
  .ok (setFloat h q x)

/-- `SetIndexFloat`, dxvalue.go:845-847. -/
def setIndexFloat (h : Heap) (p : Ptr) (idx : Int) (x : F32) : Heap :=
  let (q, h) := setIndex h p idx .float
  setFloat h q x

/-- `SetKeyDouble`, dxvalue.go:849-851. -/
def setKeyDouble (E : Env) (h : Heap) (p : Ptr) (name : Bytes) (x : F64) : Res Heap := do
  let (q, h) ← setKey E h p name .double
  .ok (setDouble h q x)

/-- `SetIndexDouble`, dxvalue.go:853-855. -/
def setIndexDouble (h : Heap) (p : Ptr) (idx : Int) (x : F64) : Heap :=
  let (q, h) := setIndex h p idx .double
  setDouble h q x

/-- `SetKeyBool`, dxvalue.go:857-863. -/
def setKeyBool (E : Env) (h : Heap) (p : Ptr) (name : Bytes) (b : Bool) : Heap :=
  setKeyValue E h p name (some (if b then trueP else falseP))

/-- `SetIndexBool`, dxvalue.go:865-871. -/
def setIndexBool (h : Heap) (p : Ptr) (idx : Int) (b : Bool) : Heap :=
  (setIndex h p idx (if b then .true else .false)).2

/-- `SetKeyTime`, dxvalue.go:874-876. -/
def setKeyTime (E : Env) (h : Heap) (p : Ptr) (name : Bytes) (x : F64) : Res Heap := do
  let (q, h) ← setKey E h p name .dateTime
  .ok (setTime h q x)

/-- `SetIndexTime`, dxvalue.go:829-831. -/
def setIndexTime (h : Heap) (p : Ptr) (idx : Int) (x : F64) : Heap :=
  let (q, h) := setIndex h p idx .dateTime
  setTime h q x

/-! ## Paths -/

/-- The readers `BoolByPath`, `IntByPath`, `FloatByPath`, `DoubleByPath`, dxvalue.go:1053-1124, with the getter as `read`;
the receiver may be nil (dxvalue.go:1038). -/
def byPath {α : Type} (E : Env) (read : Node → α) (h : Heap) (v : Option Ptr) (dflt : α) (path : List Bytes) : α × Heap :=
  match v with
  | none => (dflt, h)
  | some p =>
    match valueByPath E h p path with
    | (none, h) => (dflt, h)
    | (some q, h) => (read (h.mem q), h)

/-- `StringByPath`, dxvalue.go:1053-1059; `json` as in `getString`. -/
def stringByPath (E : Env) (json : Res Bytes) (h : Heap) (v : Option Ptr) (dflt : Bytes) (path : List Bytes) : Res Bytes × Heap :=
  match v with
  | none => (.ok dflt, h)
  | some p =>
    match valueByPath E h p path with
    | (none, h) => (.ok dflt, h)
    | (some q, h) => let r := getString E json (h.mem q); (r.1, h.set q r.2)

/-- One round of the loop of `ForcePath`, dxvalue.go:660-693. State: `llastv`, `lastv`, `curv`; `prev` is `paths[i-1]`. -/
def forceStep (E : Env) (h : Heap) (llast last : Option Ptr) (cur : Ptr) (prev key : Bytes) :
    Res (Option Ptr × Option Ptr × Ptr × Heap) :=
  let llast := if last.isSome then last else llast
  let lst := cur
  let (r, h) := valueByName E h lst key
  match r.filter (fun q => (h.mem q).dt = .object ∨ (h.mem q).dt = .array) with
  | some q => .ok (llast, some lst, q, h)
  | none =>
    match (h.mem lst).dt with
    | .array =>
      if strIdx E key < 0 then do
        let h := reset h lst .object
        let (q, h) ← setKey E h lst key .object
        .ok (llast, some lst, q, h)
      else
        let (q, h) := setIndex h lst (strIdx E key) .object
        .ok (llast, some lst, q, h)
    | .object => do
      let (q, h) ← setKey E h lst key .object
      .ok (llast, some lst, q, h)
    | _ =>
      if shared lst then
        match llast with
        | none =>
          let (q, h) := newValue h .object
          .ok (none, none, q, h)
        | some ll => do
          let (lst, h) ← setKey E h ll prev .object
          let (q, h) ← setKey E h lst key .object
          .ok (llast, some lst, q, h)
      else do
        let h := reset h lst .object
        let (q, h) ← setKey E h lst key .object
        .ok (llast, some lst, q, h)

/-- The loop of `ForcePath` and its last step, dxvalue.go:660-697. -/
def forceLoop (E : Env) (t : VT) : Heap → Option Ptr → Option Ptr → Ptr → Bytes → List Bytes → Res (Ptr × Heap)
  | h, _, _, cur, _, [] => .ok (cur, h)
  | h, _, _, cur, _, [key] => setKey E h cur key t
  | h, llast, last, cur, prev, key :: key2 :: path => do
    let (llast, last, cur, h) ← forceStep E h llast last cur prev key
    forceLoop E t h llast last cur key (key2 :: path)

/-- `ForcePath`, dxvalue.go:656-698. -/
def forcePath (E : Env) (h : Heap) (p : Ptr) (t : VT) (paths : List Bytes) : Res (Ptr × Heap) :=
  forceLoop E t h none none p [] paths

end Dxs.Heap
