import Verif.MsgPack.Model

/-!
# BSON (bson_parse.go, bson_code.go)

Slices: in Go `b[:n]` is legal up to the *capacity* of `b`, not its length. The decoder uses `b[:4]`,
`b[:8]`, `b[:valueLen]`, ... without length checks, so the bytes between length and capacity are part of
its input. They are the parameter `hid`; it is the same for all sub-slices `b[i:]`.
-/

namespace Dxs.Bson

/-- `b[:n]` for a slice `b` with the bytes `hid` between its length and its capacity. -/
def sliceTo (hid : Bytes) (n : Nat) (b : Bytes) : Res Bytes :=
  if n ≤ (b ++ hid).length then .ok ((b ++ hid).take n) else .panic

/-- `b[lo:hi]`. -/
def slice (hid : Bytes) (lo hi : Nat) (b : Bytes) : Res Bytes :=
  if lo ≤ hi ∧ hi ≤ (b ++ hid).length then .ok (((b ++ hid).take hi).drop lo) else .panic

/-- `binary.LittleEndian.Uint32(b[:4])`. -/
def uint32 (hid : Bytes) (b : Bytes) : Res Nat := do
  match ← sliceTo hid 4 b with
  | [b0, b1, b2, b3] => .ok (be32 b3 b2 b1 b0)
  | _ => .panic

/-- `binary.LittleEndian.Uint64(b[:8])`. -/
def uint64 (hid : Bytes) (b : Bytes) : Res Nat := do
  match ← sliceTo hid 8 b with
  | [b0, b1, b2, b3, b4, b5, b6, b7] => .ok (be64 b7 b6 b5 b4 b3 b2 b1 b0)
  | _ => .panic

/-- `b[i]`. -/
def at_ (b : Bytes) (i : Nat) : Res UInt8 :=
  match b[i]? with
  | some x => .ok x
  | none => .panic

/-- The binary branch of `parseValue`, bson_parse.go:176-206, for an element that is a fresh null value.
For a subtype other than 2 the element is `VT_ExBinary` with no content when `SetBinary` is called, so
`SetBinary` (bin_value.go:64-68) resets it to `VT_Binary` and stores subtype byte plus data. -/
def parseBinary (hid : Bytes) (b : Bytes) : Res (Nat × Val) := do
  let n ← uint32 hid b
  let b ← MsgPack.sliceFrom 4 b
  let sub ← at_ b 0
  if sub == 2 then do
    let b ← MsgPack.sliceFrom 5 b
    let n ← uint32 hid b
    let b ← MsgPack.sliceFrom 9 b
    if n > b.length then .err .invalidBson
    else do
      let d ← sliceTo hid n b
      .ok (9 + n, .bin 0 d)
  else do
    let d ← sliceTo hid (n + 1) b
    .ok (4 + (n + 1), .bin 0 d)

/-- `parseValue`, bson_parse.go:158-255, on an element that is a fresh null value (which is what
`SetKeyCached(_, VT_NULL, _)`/`SetIndexCached(_, VT_NULL, _)` return). Result: number of bytes consumed and
the element. Types without a case body (undefined, regex, ..., and every unknown type) consume nothing and
leave null. -/
def parseSimple (E : Env) (hid : Bytes) (ty : UInt8) (b : Bytes) : Res (Nat × Val) :=
  if ty == 0x01 then do
    let w ← uint64 hid b
    .ok (8, .double (BitVec.ofNat 64 w))
  else if ty == 0x02 then do
    let n ← uint32 hid b
    let s ← if n = 0 then .panic else slice hid 4 (4 + n - 1) b
    .ok (4 + n, .str s)
  else if ty == 0x05 then parseBinary hid b
  else if ty == 0x07 then do
    let d ← sliceTo hid 12 b
    .ok (12, .bin 7 d)
  else if ty == 0x08 then do
    let x ← at_ b 0
    .ok (1, if x == 1 then .tru else .fls)
  else if ty == 0x09 then do
    let w ← uint64 hid b
    .ok (8, .dateTime (E.ofMilli (BitVec.ofNat 64 w)))
  else if ty == 0x10 then do
    let w ← uint32 hid b
    .ok (4, .int 0 (BitVec.ofNat 64 w))
  else if ty == 0x11 then do
    let w ← uint64 hid b
    .ok (8, .int 17 (BitVec.ofNat 64 w))
  else if ty == 0x12 then do
    let w ← uint64 hid b
    .ok (8, .int 0 (BitVec.ofNat 64 w))
  else if ty == 0x13 then do
    let d ← sliceTo hid 16 b
    .ok (16, .bin 19 d)
  else .ok (0, .null)

/-- The type given to the element before its value is parsed (bson_parse.go:58, 66, 74). -/
def targetType (ty : UInt8) : VT :=
  if ty == 0x04 then .array else if ty == 0x03 then .object else .null

/-- A node just handed out by `getValue(tp)` or just `Reset(tp)`, for the three types used here. -/
def blank : VT → Val
  | .object => .obj false []
  | .array => .arr []
  | _ => .null

/-- `SetKeyCached` for an existing member (dxvalue.go:1138-1146): a member of the right type is returned
as it is, any other is reset. (Members decoded from BSON are never one of the five shared constants, and
never nil.) -/
def settle (tp : VT) (old : Val) : Val := if old.vt = tp then old else blank tp

mutual
/-- `parseBsonDocument`, bson_parse.go:24-88, on the object `obj ku kvs`; returns `docLen` and the object.
Fuel: every call and every loop round uses one unit. -/
def parseDoc (E : Env) (hid : Bytes) : Nat → Bytes → Bool → List (Bytes × Val) → Res (Nat × Val)
  | 0, _, _, _ => .loop
  | fuel + 1, b, ku, kvs =>
    if b.length ≤ 4 then .err .badBsonLen
    else do
      let docLen ← uint32 hid b
      if docLen > b.length then .err .badBsonLen
      else do
        let o ← docLoop E hid fuel b docLen 4 ku kvs
        .ok (docLen, o)
/-- The loop of `parseBsonDocument`, bson_parse.go:38-86. -/
def docLoop (E : Env) (hid : Bytes) : Nat → Bytes → Nat → Nat → Bool → List (Bytes × Val) → Res Val
  | 0, _, _, _, _, _ => .loop
  | fuel + 1, b, docLen, pi, ku, kvs =>
    if pi < docLen then do
      let ty ← at_ b pi
      let pi := pi + 1
      match (b.drop pi).idxOf? 0 with
      | none => .err .invalidBson
      | some k => do
        let key := (b.drop pi).take k
        let pi := pi + k + 1
        let tp := targetType ty
        match indexByName E ku kvs key with
        | (some i, ku', kvs') => do
          let cur := settle tp ((kvs'[i]?.map Prod.snd).getD .nil)
          let (n, v) ← parseElem E hid fuel ty (b.drop pi) cur
          let kvs'' := kvs'.modify i (fun kv => (kv.1, v))
          let pi := pi + n
          if pi = docLen - 1 ∧ b[pi]? = some 0 then .ok (.obj ku' kvs'')
          else docLoop E hid fuel b docLen pi ku' kvs''
        | (none, ku', kvs') => do
          let (n, v) ← parseElem E hid fuel ty (b.drop pi) (blank tp)
          let kvs'' := kvs' ++ [(key, v)]
          let pi := pi + n
          if pi = docLen - 1 ∧ b[pi]? = some 0 then .ok (.obj ku' kvs'')
          else docLoop E hid fuel b docLen pi ku' kvs''
    else .ok (.obj ku kvs)
/-- The `switch btype` of bson_parse.go:56-81 and 125-150. `cur` is the element before parsing; the result
is the number of bytes to skip and the element after parsing. -/
def parseElem (E : Env) (hid : Bytes) : Nat → UInt8 → Bytes → Val → Res (Nat × Val)
  | 0, _, _, _ => .loop
  | fuel + 1, ty, b, cur =>
    if ty == 0x04 then
      match cur with
      | .arr xs => parseArr E hid fuel b xs
      | _ => .panic -- not reached: `cur` has type `targetType ty`
    else if ty == 0x03 then
      match cur with
      | .obj ku kvs => parseDoc E hid fuel b ku kvs
      | _ => .panic -- not reached
    else parseSimple E hid ty b
/-- `parseBsonArray`, bson_parse.go:91-156. -/
def parseArr (E : Env) (hid : Bytes) : Nat → Bytes → List Val → Res (Nat × Val)
  | 0, _, _ => .loop
  | fuel + 1, b, xs => do
    let docLen ← uint32 hid b
    if docLen > b.length then .err .badBsonLen
    else do
      let o ← arrLoop E hid fuel b docLen 4 xs
      .ok (docLen, o)
/-- The loop of `parseBsonArray`, bson_parse.go:102-154, with `SetIndexCached` (dxvalue.go:1216-1241):
inside the bounds the existing element is used, outside a new one is appended. -/
def arrLoop (E : Env) (hid : Bytes) : Nat → Bytes → Nat → Nat → List Val → Res Val
  | 0, _, _, _, _ => .loop
  | fuel + 1, b, docLen, pi, xs =>
    if pi < docLen then do
      let ty ← at_ b pi
      let pi := pi + 1
      match (b.drop pi).idxOf? 0 with
      | none => .err .invalidBson
      | some k => do
        let key := (b.drop pi).take k
        let idx : Int := ((E.strToInt key).map BitVec.toInt).getD (-1)
        if idx = -1 then .err .bsonArrayIndex
        else do
          let pi := pi + k + 1
          let tp := targetType ty
          let i := idx.toNat
          if 0 ≤ idx ∧ i < xs.length then do
            let cur := settle tp ((xs[i]?).getD .nil)
            let (n, v) ← parseElem E hid fuel ty (b.drop pi) cur
            let xs' := xs.set i v
            let pi := pi + n
            if pi = docLen - 1 ∧ b[pi]? = some 0 then .ok (.arr xs')
            else arrLoop E hid fuel b docLen pi xs'
          else do
            let (n, v) ← parseElem E hid fuel ty (b.drop pi) (blank tp)
            let xs' := xs ++ [v]
            let pi := pi + n
            if pi = docLen - 1 ∧ b[pi]? = some 0 then .ok (.arr xs')
            else arrLoop E hid fuel b docLen pi xs'
    else .ok (.arr xs)
end

/-- `NewValueFromBson`, bson_parse.go:257-270. `hid` are the bytes between length and capacity of `b`. -/
def newValueFromBson (E : Env) (hid b : Bytes) : Res Val := do
  let (_, v) ← parseDoc E hid (2 * b.length + 2) b false []
  .ok v

/-! ## Encoding -/

/-- `binary.LittleEndian.PutUint32(_, uint32(n))` / `putLittI32` (bson_parse.go:355-360). -/
def putLE32 (n : Int) : Bytes := [byteI n, byteI (n >>> 8), byteI (n >>> 16), byteI (n >>> 24)]

/-- `putLittI64` (bson_parse.go:362-367). -/
def putLE64 (n : Int) : Bytes :=
  [byteI n, byteI (n >>> 8), byteI (n >>> 16), byteI (n >>> 24),
   byteI (n >>> 32), byteI (n >>> 40), byteI (n >>> 48), byteI (n >>> 56)]

/-- `writeBsonElementType`, bson_parse.go:432-479: the bytes appended (none for NAN and INF). -/
def elementType : Val → Bytes
  | .nil => [0x0a]
  | .obj _ _ => [0x03]
  | .arr _ => [0x04]
  | .str _ => [0x02]
  | .raw _ => [0x02]
  | .int ext c =>
    if ext == 0x11 then [0x11]
    else if c.toInt < -2147483648 ∨ c.toInt > 2147483647 then [0x12] else [0x10]
  | .float _ => [0x01]
  | .double _ => [0x01]
  | .dateTime _ => [0x09]
  | .bin ext _ => if ext != 0 then [ext] else [0x05]
  | .exbin ext _ => if ext != 0 then [ext] else [0x05]
  | .null => [0x0a]
  | .tru => [0x08]
  | .fls => [0x08]
  | .nan => []
  | .inf => []

/-- `v.fbinary[:n]`. Simplification: the binary has no spare capacity, so a short binary panics. -/
def binTo (n : Nat) (b : Bytes) : Res Bytes := if n ≤ b.length then .ok (b.take n) else .panic

/-- `writeSimpleBsonValue`, bson_parse.go:369-430: the bytes appended for a value that is neither object
nor array. `v.String()` of a raw string is the unescaped string (dxvalue.go:752-755). -/
def simpleValue (E : Env) : Val → Res Bytes
  | .str s => .ok (putLE32 ((s.length : Int) + 1) ++ s ++ [0])
  | .raw s => .ok (putLE32 (((E.unesc s).length : Int) + 1) ++ E.unesc s ++ [0])
  | .int ext c =>
    if ext == 0x11 then .ok (putLE64 c.toInt)
    else if c.toInt < -2147483648 ∨ c.toInt > 2147483647 then .ok (putLE64 c.toInt)
    else .ok (putLE32 c.toInt)
  | .float c => .ok (putLE64 c.toInt)
  | .double c => .ok (putLE64 c.toInt)
  | .dateTime c => .ok (putLE64 (E.unixMilli c).toInt)
  | .bin ext b =>
    if ext == 0x07 then binTo 12 b
    else if ext == 0x13 then binTo 16 b
    else .ok (putLE32 b.length ++ [0] ++ b)
  | .exbin ext b =>
    if ext == 0x05 then .ok (putLE32 ((b.length : Int) - 1) ++ b)
    else .ok (putLE32 b.length ++ [0] ++ b)
  | .tru => .ok [1]
  | .fls => .ok [0]
  | .nil => .ok []
  | .null => .ok []
  | .nan => .ok []
  | .inf => .ok []
  | .obj _ _ => .ok [] -- not reached
  | .arr _ => .ok [] -- not reached

/-- The end of `writeObjBsonValue`/`writeArrayBsonValue`, bson_parse.go:315-319, 348-352: append the final
zero byte and patch the length into the four bytes reserved at offset `l`. -/
def closeDoc (l : Nat) (dst : Bytes) : Bytes :=
  MsgPack.overwrite (dst ++ [0]) l (putLE32 (((dst ++ [0]).length : Int) - (l : Int)))

mutual
/-- The `switch` of bson_parse.go:306-313, 339-346 (nothing is written for a nil element). The two container
cases are `writeObjBsonValue` (bson_parse.go:284-320) and `writeArrayBsonValue` (322-353). -/
def writeValue (E : Env) : Val → Bytes → Res Bytes
  | .obj ku kvs, dst => do
    let d ← writeMembers E ku kvs (dst ++ [0, 0, 0, 0])
    .ok (closeDoc dst.length d)
  | .arr xs, dst => do
    let d ← writeElems E xs 0 (dst ++ [0, 0, 0, 0])
    .ok (closeDoc dst.length d)
  | v, dst => do
    let p ← simpleValue E v
    .ok (dst ++ p)
/-- The loop of bson_parse.go:289-314; the keys were unescaped by `UnEscapestrs` on line 285. -/
def writeMembers (E : Env) (ku : Bool) : List (Bytes × Val) → Bytes → Res Bytes
  | [], dst => .ok dst
  | (k, v) :: kvs, dst => do
    let dst := dst ++ elementType v ++ (if ku then k else E.unesc k) ++ [0]
    let dst ← writeValue E v dst
    writeMembers E ku kvs dst
/-- The loop of bson_parse.go:326-347. -/
def writeElems (E : Env) : List Val → Nat → Bytes → Res Bytes
  | [], _, dst => .ok dst
  | v :: vs, i, dst => do
    let dst := dst ++ elementType v ++ decNat i ++ [0]
    let dst ← writeValue E v dst
    writeElems E vs (i + 1) dst
end

/-- `Value2Bson`, bson_parse.go:273-282. A nil value panics (`v.DataType`). -/
def value2Bson (E : Env) : Val → Bytes → Res Bytes
  | .obj ku kvs, dst => writeValue E (.obj ku kvs) dst
  | .arr xs, dst => writeValue E (.arr xs) dst
  | .nil, _ => .panic
  | _, _ => .err .bsonType

/-- `(*DxValue).ToBson`, dxvalue.go:394-403 (simple values are written bare). -/
def toBson (E : Env) : Val → Bytes → Res Bytes
  | .nil, _ => .panic
  | v, dst => writeValue E v dst

end Dxs.Bson
