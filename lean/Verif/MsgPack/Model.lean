import Verif.Val

/-!
# Model of the MessagePack codec (msgpack_codes.go, msgpack_value.go, msgpackparse.go), tree level

The model works on trees and fresh memory (`useCache = false`); `sharebinary` only decides whether
bytes are aliased or copied, which is invisible at this level. The heap level treats caches.
-/

namespace Dxs.MsgPack

/-! ## msgpack_codes.go -/

/-- `IsExt`, msgpack_codes.go:87-89. -/
def isExt (c : UInt8) : Bool :=
  (0xd4 ≤ c.toNat && c.toNat ≤ 0xd8) || (0xc7 ≤ c.toNat && c.toNat ≤ 0xc9)
/-- `IsTime`, msgpack_codes.go:91-93. -/
def isTime (c : UInt8) (extType : UInt8) : Bool :=
  extType == 0xff && (c == 0xd6 || c == 0xd7 || c == 0xc7)
/-- `IsMap`, msgpack_codes.go:95-97. -/
def isMap (c : UInt8) : Bool := (0x80 ≤ c.toNat && c.toNat ≤ 0x8f) || c == 0xde || c == 0xdf
/-- `IsFixedNum`, msgpack_codes.go:99-101. -/
def isFixedNum (c : UInt8) : Bool := c.toNat ≤ 0x7f || 0xe0 ≤ c.toNat
/-- `IsFixedStr`, msgpack_codes.go:107-109. -/
def isFixedStr (c : UInt8) : Bool := 0xa0 ≤ c.toNat && c.toNat ≤ 0xbf
/-- `IsStr`, msgpack_codes.go:111-113. -/
def isStr (c : UInt8) : Bool :=
  (0xa0 ≤ c.toNat && c.toNat ≤ 0xbf) || (0xd9 ≤ c.toNat && c.toNat ≤ 0xdb)
/-- `IsArray`, msgpack_codes.go:115-117. -/
def isArray (c : UInt8) : Bool := (0x90 ≤ c.toNat && c.toNat ≤ 0x9f) || c == 0xdc || c == 0xdd
/-- `IsBin`, msgpack_codes.go:119-121. -/
def isBin (c : UInt8) : Bool := 0xc4 ≤ c.toNat && c.toNat ≤ 0xc6

/-! ## msgpack_value.go: reading -/

/-- `readCode`, msgpackparse.go:21-26. -/
def readCode : Bytes → Res (UInt8 × Bytes)
  | c :: b => .ok (c, b)
  | [] => .err .unknownCode

/-- `parseUint8`, msgpack_value.go:8-13. -/
def parseUint8 : Bytes → Res (Nat × Bytes)
  | b0 :: b => .ok (b0.toNat, b)
  | _ => .err .parseInt

/-- `parseUint16`, msgpack_value.go:15-20. -/
def parseUint16 : Bytes → Res (Nat × Bytes)
  | b0 :: b1 :: b => .ok (be16 b0 b1, b)
  | _ => .err .parseInt

/-- `parseUint32`, msgpack_value.go:22-27. -/
def parseUint32 : Bytes → Res (Nat × Bytes)
  | b0 :: b1 :: b2 :: b3 :: b => .ok (be32 b0 b1 b2 b3, b)
  | _ => .err .parseInt

/-- `parseUint64`, msgpack_value.go:29-35. -/
def parseUint64 : Bytes → Res (Nat × Bytes)
  | b0 :: b1 :: b2 :: b3 :: b4 :: b5 :: b6 :: b7 :: b => .ok (be64 b0 b1 b2 b3 b4 b5 b6 b7, b)
  | _ => .err .parseInt

/-- `parseLen`, msgpack_value.go:37-53. -/
def parseLen (code : UInt8) (b : Bytes) : Res (Nat × Bytes) :=
  if isFixedStr code then .ok ((code &&& 0x1f).toNat, b)
  else if code == 0xd9 || code == 0xc4 then parseUint8 b
  else if code == 0xda || code == 0xc5 then parseUint16 b
  else if code == 0xdb || code == 0xc6 then parseUint32 b
  else .err .parseObjLen

/-- `parseExtLen`, msgpack_value.go:55-79. -/
def parseExtLen (code : UInt8) (b : Bytes) : Res (Nat × Bytes) :=
  if code == 0xd4 then .ok (1, b)
  else if code == 0xd5 then .ok (2, b)
  else if code == 0xd6 then .ok (4, b)
  else if code == 0xd7 then .ok (8, b)
  else if code == 0xd8 then .ok (16, b)
  else if code == 0xc7 then parseUint8 b
  else if code == 0xc8 then parseUint16 b
  else if code == 0xc9 then parseUint32 b
  else .err (.extLen code)

/-- `err = ErrParseObjLen` when an error occurred (msgpack_value.go:88-90, 94-96, 119-121). -/
def mapErr {α : Type} (e : Err) : Res α → Res α
  | .err _ => .err e
  | r => r

/-- `parseMapLen`, msgpack_value.go:81-100. -/
def parseMapLen (code : UInt8) (b : Bytes) : Res (Nat × Bytes) :=
  if 0x80 ≤ code.toNat && code.toNat ≤ 0x8f then .ok ((code &&& 0x0f).toNat, b)
  else if code == 0xde then mapErr .parseObjLen (parseUint16 b)
  else if code == 0xdf then mapErr .parseObjLen (parseUint32 b)
  else .err .invalidCode

/-- `parseArrLen`, msgpack_value.go:102-115. -/
def parseArrLen (code : UInt8) (b : Bytes) : Res (Nat × Bytes) :=
  if 0x90 ≤ code.toNat && code.toNat ≤ 0x9f then .ok ((code &&& 0x0f).toNat, b)
  else if code == 0xdc then parseUint16 b
  else if code == 0xdd then parseUint32 b
  else .err .invalidCode

/-- `parseRawStringByte` and `parseString` (identical bodies), msgpack_value.go:117-145. -/
def parseStr (code : UInt8) (b : Bytes) : Res (Bytes × Bytes) := do
  let (n, b) ← mapErr .parseObjLen (parseLen code b)
  if n = 0 then .ok ([], b)
  else if n ≤ b.length then .ok (b.take n, b.drop n)
  else .err (.truncated n b.length)

/-! ## msgpackparse.go: decoding -/

/-- The loop of `parseMsgPackArray`, msgpackparse.go:126-133; `p` is `parseMsgPackValue`. -/
def parseElems (p : Bytes → Res (Val × Bytes)) : Nat → Bytes → Res (List Val × Bytes)
  | 0, b => .ok ([], b)
  | n + 1, b => do
    let (v, b) ← p b
    let (vs, b) ← parseElems p n b
    .ok (v :: vs, b)

/-- `parseMsgPackArray`, msgpackparse.go:113-135. -/
def parseArray (p : Bytes → Res (Val × Bytes)) (code : UInt8) (b : Bytes) : Res (Val × Bytes) := do
  let (n, b) ← parseArrLen code b
  let (vs, b) ← parseElems p n b
  .ok (.arr vs, b)

/-- The loop of `parseMsgPackObject`, msgpackparse.go:85-107, on the object built so far. -/
def parseMembers (E : Env) (p : Bytes → Res (Val × Bytes)) :
    Nat → Bool → List (Bytes × Val) → Bytes → Res (Val × Bytes)
  | 0, ku, kvs, b => .ok (.obj ku kvs, b)
  | n + 1, ku, kvs, b => do
    let (code, b) ← readCode b
    let (key, b) ← parseStr code b
    let (v, b) ← p b
    let o := setKeyValueObj E ku kvs key v
    parseMembers E p n o.1 o.2 b

/-- `parseMsgPackObject`, msgpackparse.go:67-110. `b[0]` on line 75 panics when nothing follows. -/
def parseObject (E : Env) (p : Bytes → Res (Val × Bytes)) (code : UInt8) (b : Bytes) :
    Res (Val × Bytes) := do
  let (n, b) ← parseMapLen code b
  if n = 0 then .ok (.obj false [], b)
  else
    match b with
    | [] => .panic
    | k :: _ => if !(isStr k) then .err .mapKey else parseMembers E p n false [] b

/-- `int64(int8(x))` -/
def sx8 (n : Nat) : BitVec 64 := (BitVec.ofNat 8 n).signExtend 64
/-- `int64(int16(x))` -/
def sx16 (n : Nat) : BitVec 64 := (BitVec.ofNat 16 n).signExtend 64
/-- `int64(int32(x))` -/
def sx32 (n : Nat) : BitVec 64 := (BitVec.ofNat 32 n).signExtend 64

/-- `binary.BigEndian.Uint32(b)`: panics when `len(b) < 4`. -/
def goUint32 : Bytes → Res Nat
  | b0 :: b1 :: b2 :: b3 :: _ => .ok (be32 b0 b1 b2 b3)
  | _ => .panic

/-- `binary.BigEndian.Uint64(b)`: panics when `len(b) < 8`. -/
def goUint64 : Bytes → Res Nat
  | b0 :: b1 :: b2 :: b3 :: b4 :: b5 :: b6 :: b7 :: _ => .ok (be64 b0 b1 b2 b3 b4 b5 b6 b7)
  | _ => .panic

/-- `b[n:]`: panics when `n > len(b)`. -/
def sliceFrom (n : Nat) (b : Bytes) : Res Bytes := if n ≤ b.length then .ok (b.drop n) else .panic

/-- The timestamp switch, msgpackparse.go:300-317: the resulting TDateTime. `b` starts at the type byte. -/
def parseTime (E : Env) (code : UInt8) (b : Bytes) : Res F64 :=
  if code == 0xd6 then do
    let b1 ← sliceFrom 1 b
    let sec ← goUint32 b1
    .ok (E.ofUnix (BitVec.ofNat 64 sec) 0)
  else if code == 0xd7 then do
    let b1 ← sliceFrom 1 b
    let w ← goUint64 b1
    .ok (E.ofUnix (BitVec.ofNat 64 (w &&& 0x00000003ffffffff)) (w >>> 34))
  else do
    let b1 ← sliceFrom 1 b
    let nsec ← goUint32 b1
    let b5 ← sliceFrom 5 b
    let sec ← goUint64 b5
    .ok (E.ofUnix (BitVec.ofNat 64 sec) nsec)

/-- The extension branch of `parseMsgPackValue`, msgpackparse.go:286-325.
Line 293 checks `haslen < exlen` although `exlen+1` bytes are needed. -/
def parseExt (E : Env) (code : UInt8) (b : Bytes) : Res (Val × Bytes) := do
  let (n, b) ← parseExtLen code b
  if b.length < n then .err (.truncated n b.length)
  else do
    let tail ← sliceFrom (n + 1) b
    match b with
    | [] => .panic
    | ty :: _ =>
      if isTime code ty then do
        let c ← parseTime E code b
        .ok (.dateTime c, tail)
      else .ok (.exbin 0 (b.take (n + 1)), tail)

/-- The binary branch of `parseMsgPackValue`, msgpackparse.go:268-285. -/
def parseBin (code : UInt8) (b : Bytes) : Res (Val × Bytes) := do
  let (n, b) ← parseLen code b
  if n ≤ b.length then .ok (.bin 0 (b.take n), b.drop n)
  else .err (.truncated n b.length)

/-- `parseMsgPackValue`, msgpackparse.go:158-328. The fuel bounds the recursion depth.
The last branch is reached only by the code 0xc1: the `switch` has no case for it, so the bare `return`
on line 327 returns `(nil, nil, nil)`. -/
def parseValue (E : Env) : Nat → Bytes → Res (Val × Bytes)
  | 0, _ => .loop
  | fuel + 1, b => do
    let (code, b) ← readCode b
    if isStr code then do
      let (s, b) ← parseStr code b
      .ok (.str s, b)
    else if isArray code then parseArray (parseValue E fuel) code b
    else if isMap code then parseObject E (parseValue E fuel) code b
    else if isFixedNum code then .ok (.int 0 (sx8 code.toNat), b)
    else if code == 0xcc then do
      let (u, b) ← parseUint8 b
      .ok (.int 0 (BitVec.ofNat 64 u), b)
    else if code == 0xd0 then do
      let (u, b) ← parseUint8 b
      .ok (.int 0 (sx8 u), b)
    else if code == 0xcd then do
      let (u, b) ← parseUint16 b
      .ok (.int 0 (BitVec.ofNat 64 u), b)
    else if code == 0xd1 then do
      let (u, b) ← parseUint16 b
      .ok (.int 0 (sx16 u), b)
    else if code == 0xce then do
      let (u, b) ← parseUint32 b
      .ok (.int 0 (BitVec.ofNat 64 u), b)
    else if code == 0xd2 then do
      let (u, b) ← parseUint32 b
      .ok (.int 0 (sx32 u), b)
    else if code == 0xd3 || code == 0xcf then do
      let (u, b) ← parseUint64 b
      .ok (.int 0 (BitVec.ofNat 64 u), b)
    else if code == 0xca then do
      let (u, b) ← parseUint32 b
      .ok (Val.ofF32 (BitVec.ofNat 32 u), b)
    else if code == 0xcb then do
      let (u, b) ← parseUint64 b
      .ok (.double (BitVec.ofNat 64 u), b)
    else if code == 0xc3 then .ok (.tru, b)
    else if code == 0xc2 then .ok (.fls, b)
    else if code == 0xc0 then .ok (.null, b)
    else if isBin code then parseBin code b
    else if isExt code then parseExt E code b
    else .ok (.nil, [])

/-- `parseMsgPackValue` with enough fuel for its input (see `parseValue_no_loop`). -/
def parse (E : Env) (b : Bytes) : Res (Val × Bytes) := parseValue E (b.length + 1) b

/-- `NewValueFromMsgPack`, msgpackparse.go:487-499 (`useCache = false`). -/
def newValueFromMsgPack (E : Env) (b : Bytes) : Res Val := do
  let (v, _) ← parse E b
  .ok v

/-! ## msgpack_value.go: writing -/

/-- `append(dst, byte(n>>8), byte(n))`. -/
def put16 (n : Int) : Bytes := [byteI (n >>> 8), byteI n]
/-- `append(dst, byte(n>>24), …, byte(n))`. -/
def put32 (n : Int) : Bytes := [byteI (n >>> 24), byteI (n >>> 16), byteI (n >>> 8), byteI n]
/-- `append(dst, byte(n>>56), …, byte(n))`. -/
def put64 (n : Int) : Bytes :=
  [byteI (n >>> 56), byteI (n >>> 48), byteI (n >>> 40), byteI (n >>> 32),
   byteI (n >>> 24), byteI (n >>> 16), byteI (n >>> 8), byteI n]

/-- `writeExtCode`, msgpack_value.go:169-190. The first `switch` does not return, so for the lengths
1, 2, 4, 8, 16 both a fixext code and an ext8 header are written. -/
def writeExtCode (n : Nat) (dst : Bytes) : Bytes :=
  let dst :=
    if n = 1 then dst ++ [0xd4]
    else if n = 2 then dst ++ [0xd5]
    else if n = 4 then dst ++ [0xd6]
    else if n = 8 then dst ++ [0xd7]
    else if n = 16 then dst ++ [0xd8]
    else dst
  if n < 256 then dst ++ ([0xc7] ++ [byteI n])
  else if n < 65536 then dst ++ ([0xc8] ++ put16 n)
  else dst ++ ([0xc9] ++ put32 n)

/-- `writeBinCode`, msgpack_value.go:192-201. -/
def writeBinCode (n : Nat) (dst : Bytes) : Bytes :=
  if n < 256 then dst ++ ([0xc4] ++ [byteI n])
  else if n < 65536 then dst ++ ([0xc5] ++ put16 n)
  else dst ++ ([0xc6] ++ put32 n)

/-- `writeStrCode`, msgpack_value.go:203-215. -/
def writeStrCode (n : Nat) (dst : Bytes) : Bytes :=
  if n < 32 then dst ++ [0xa0 ||| byteI n]
  else if n < 256 then dst ++ ([0xd9] ++ [byteI n])
  else if n < 65536 then dst ++ ([0xda] ++ put16 n)
  else dst ++ ([0xdb] ++ put32 n)

/-- `writeMapCode`, msgpack_value.go:217-227. -/
def writeMapCode (n : Nat) (dst : Bytes) : Bytes :=
  if n < 16 then dst ++ [0x80 ||| byteI n]
  else if n < 65536 then dst ++ ([0xde] ++ put16 n)
  else dst ++ ([0xdf] ++ put32 n)

/-- `writeArrayCode`, msgpack_value.go:229-239. -/
def writeArrayCode (n : Nat) (dst : Bytes) : Bytes :=
  if n < 16 then dst ++ [0x90 ||| byteI n]
  else if n < 65536 then dst ++ ([0xdc] ++ put16 n)
  else dst ++ ([0xdd] ++ put32 n)

/-- `writeInt`, msgpack_value.go:241-271. -/
def writeInt (n : Int) (dst : Bytes) : Bytes :=
  if n ≥ 0 then
    if n ≤ 127 then dst ++ [byteI n]
    else if n ≤ 255 then dst ++ ([0xcc] ++ [byteI n])
    else if n ≤ 65535 then dst ++ ([0xcd] ++ put16 n)
    else if n ≤ 4294967295 then dst ++ ([0xce] ++ put32 n)
    else dst ++ ([0xcf] ++ put64 n)
  else if n ≥ -32 then dst ++ [byteI n]
  else if n ≥ -128 then dst ++ ([0xd0] ++ [byteI n])
  else if n ≥ -32768 then dst ++ ([0xd1] ++ put16 n)
  else if n ≥ -2147483648 then dst ++ ([0xd2] ++ put32 n)
  else dst ++ ([0xd3] ++ put64 n)

/-! ## msgpackparse.go: encoding -/

/-- `copy`/`Put…` into `dst[l:]`: overwrite in place, starting at offset `l`. -/
def overwrite (dst : Bytes) (l : Nat) (bs : Bytes) : Bytes :=
  dst.take l ++ bs ++ dst.drop (l + bs.length)

/-- The `VT_DateTime` branch of `Value2MsgPack`, msgpackparse.go:536-565. -/
def writeTime (E : Env) (c : F64) (dst : Bytes) : Bytes :=
  let secs : Nat := (E.unixSec c).toNat
  let nano : Nat := (E.unixNano c).val
  if secs >>> 34 = 0 then
    let data : Nat := (nano <<< 34) ||| secs
    if data &&& 0xffffffff00000000 = 0 then
      let dst := dst ++ [0xd6, 0xff]
      let l := dst.length
      let dst := dst ++ [0, 0, 0, 0]
      overwrite dst l (put32 (data : Int))
    else
      let dst := dst ++ [0xd7, 0xff]
      let l := dst.length
      let dst := dst ++ [0, 0, 0, 0, 0, 0, 0, 0]
      overwrite dst l (put64 (data : Int))
  else
    let dst := dst ++ [0xc7, 12, 0xff]
    let l := dst.length
    let dst := dst ++ [0, 0, 0, 0, 0, 0, 0, 0, 0, 0, 0, 0]
    overwrite (overwrite dst l (put32 (nano : Int))) (l + 4) (put64 (secs : Int))

mutual
/-- `Value2MsgPack`, msgpackparse.go:511-598. -/
def enc (E : Env) : Val → Bytes → Bytes
  | .nil, dst => dst ++ [0xc0]
  | .obj _ kvs, dst => encMembers E kvs (writeMapCode kvs.length dst)
  | .arr xs, dst => encElems E xs (writeArrayCode xs.length dst)
  | .dateTime c, dst => writeTime E c dst
  | .exbin _ b, dst => writeExtCode (b.length - 1) dst ++ b
  | .bin _ b, dst => writeBinCode b.length dst ++ b
  | .float c, dst => dst ++ ([0xca] ++ put32 ((lo32 c).toNat : Int))
  | .double c, dst => dst ++ ([0xcb] ++ put64 (c.toNat : Int))
  | .int _ c, dst => writeInt c.toInt dst
  | .str s, dst => writeStrCode s.length dst ++ s
  | .raw s, dst => writeStrCode s.length dst ++ s
  | .fls, dst => dst ++ [0xc2]
  | .tru, dst => dst ++ [0xc3]
  | .null, dst => dst ++ [0xc0]
  | .nan, dst => dst
  | .inf, dst => dst
/-- The loop of msgpackparse.go:533-535. -/
def encElems (E : Env) : List Val → Bytes → Bytes
  | [], dst => dst
  | v :: vs, dst => encElems E vs (enc E v dst)
/-- The loop of msgpackparse.go:523-529. -/
def encMembers (E : Env) : List (Bytes × Val) → Bytes → Bytes
  | [], dst => dst
  | (k, v) :: kvs, dst => encMembers E kvs (enc E v (writeStrCode k.length dst ++ k))
end

/-- `Value2MsgPack(v, nil)`. -/
def value2MsgPack (E : Env) (v : Val) : Bytes := enc E v []

end Dxs.MsgPack
