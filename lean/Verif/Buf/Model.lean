import Verif.Bson.Model
import Verif.Json.Model

/-!
# Byte arrays and slices: what values share with the input of a parser (`sharebinary`) and with the caller

A Go slice is a window into an array: array, offset, length, capacity. Strings made with `FastByte2String` (external, DxCommonLib: the string header on the
same bytes) are windows as well. `own b` stands for bytes in an array nobody else has: what `string(b)` and `append(nil, b...)` make. `ParserEscapeStr`
(external) is taken to return a string of its own.
-/

namespace Dxs.Buf

open MsgPack (readCode parseLen parseExtLen parseMapLen parseArrLen mapErr sliceFrom parseTime isStr isArray isMap isBin isExt isFixedNum isTime sx8 sx16 sx32
  parseUint8 parseUint16 parseUint32 parseUint64)

/-- The arrays, each up to its capacity. -/
abbrev Mem := Nat → Bytes

/-- A slice. -/
structure Slice where
  arr : Nat
  off : Nat
  len : Nat
  cap : Nat
deriving DecidableEq, Repr

/-- The bytes of a slice. -/
def Slice.read (m : Mem) (s : Slice) : Bytes := ((m s.arr).drop s.off).take s.len

/-- Bytes of a value: in an array of their own or a window into another one. -/
inductive Ref where
  | own (b : Bytes)
  | sl (s : Slice)
deriving DecidableEq, Repr

/-- The bytes meant. -/
def Ref.read (m : Mem) : Ref → Bytes
  | .own b => b
  | .sl s => s.read m

/-- A tree whose strings, binaries and keys are references; `lit` for the kinds without bytes. -/
inductive LVal where
  | obj (ku : Bool) (kvs : List (Ref × LVal))
  | arr (xs : List LVal)
  | str (r : Ref)
  | raw (r : Ref)
  | bin (ext : UInt8) (r : Ref)
  | exbin (ext : UInt8) (r : Ref)
  | lit (v : Val)

mutual
/-- The tree it stands for. -/
def LVal.read (m : Mem) : LVal → Val
  | .obj ku kvs => .obj ku (readM m kvs)
  | .arr xs => .arr (readL m xs)
  | .str r => .str (r.read m)
  | .raw r => .raw (r.read m)
  | .bin e r => .bin e (r.read m)
  | .exbin e r => .exbin e (r.read m)
  | .lit v => v
def readL (m : Mem) : List LVal → List Val
  | [] => []
  | x :: xs => x.read m :: readL m xs
def readM (m : Mem) : List (Ref × LVal) → List (Bytes × Val)
  | [] => []
  | (k, x) :: xs => (k.read m, x.read m) :: readM m xs
end

/-- Kinds without bytes. -/
def NoBytes : Val → Prop
  | .obj .. | .arr _ | .str _ | .raw _ | .bin .. | .exbin .. => False
  | _ => True

mutual
/-- All references of the tree satisfy `P`. -/
def LVal.All (P : Ref → Prop) : LVal → Prop
  | .obj _ kvs => AllM P kvs
  | .arr xs => AllL P xs
  | .str r => P r
  | .raw r => P r
  | .bin _ r => P r
  | .exbin _ r => P r
  | .lit v => NoBytes v
def AllL (P : Ref → Prop) : List LVal → Prop
  | [] => True
  | x :: xs => x.All P ∧ AllL P xs
def AllM (P : Ref → Prop) : List (Ref × LVal) → Prop
  | [] => True
  | (k, x) :: xs => P k ∧ x.All P ∧ AllM P xs
end

/-- The input of a parser: a slice at the beginning of an array, with the bytes `hid` between length and capacity. -/
structure Input where
  id : Nat
  bytes : Bytes
  hid : Bytes

/-- `t[:n]`, `string(t[:n])`, `FastByte2String(t[:n])`, `append(nil, t[:n]...)` for the rest `t` of the input. -/
def mk (share : Bool) (I : Input) (t : Bytes) (n : Nat) : Ref :=
  if share then
    .sl { arr := I.id, off := I.bytes.length - t.length, len := n, cap := I.bytes.length + I.hid.length - (I.bytes.length - t.length) }
  else .own ((t ++ I.hid).take n)

/-- `t[k:k+n]`, which may lie beyond the length of the input, in its capacity. -/
def mkAt (share : Bool) (I : Input) (t : Bytes) (k n : Nat) : Ref :=
  if share then
    .sl { arr := I.id, off := I.bytes.length - t.length + k, len := n, cap := I.bytes.length + I.hid.length - (I.bytes.length - t.length + k) }
  else .own (((t ++ I.hid).drop k).take n)

/-! ## Members -/

/-- `UnEscapestrs`, dxvalue.go:135-144. -/
def unescKeysL (E : Env) (m : Mem) (ku : Bool) (kvs : List (Ref × LVal)) : List (Ref × LVal) :=
  if ku then kvs else kvs.map (fun kv => (.own (E.unesc (kv.1.read m)), kv.2))

/-- The loops dxvalue.go:101-105, 109-113. -/
def findKeyL (E : Env) (m : Mem) (kvs : List (Ref × LVal)) (name : Bytes) : Option Nat := kvs.findIdx? (fun kv => E.keyMatch (kv.1.read m) name)

/-- `indexByName`, dxvalue.go:99-115. -/
def indexByNameL (E : Env) (m : Mem) (ku : Bool) (kvs : List (Ref × LVal)) (name : Bytes) : Option Nat × Bool × List (Ref × LVal) :=
  if !ku && !(name.contains 92) then
    match findKeyL E m kvs name with
    | some i => (some i, ku, kvs)
    | none => (findKeyL E m (unescKeysL E m ku kvs) name, true, unescKeysL E m ku kvs)
  else (findKeyL E m (unescKeysL E m ku kvs) name, true, unescKeysL E m ku kvs)

/-- `SetKeyValue`, dxvalue.go:1159-1178, on an object. -/
def setKeyL (E : Env) (m : Mem) (ku : Bool) (kvs : List (Ref × LVal)) (k : Ref) (v : LVal) : Bool × List (Ref × LVal) :=
  match indexByNameL E m ku kvs (k.read m) with
  | (some i, ku', kvs') => (ku', kvs'.modify i (fun kv => (kv.1, v)))
  | (none, ku', kvs') => (ku', kvs' ++ [(k, v)])

/-! ## MessagePack -/

/-- `parseRawStringByte`/`parseString` (msgpack_value.go:117-145) with the conversions msgpackparse.go:96-100, 170-174. -/
def mpStr (share : Bool) (I : Input) (code : UInt8) (b : Bytes) : Res (Ref × Bytes) := do
  let (n, b) ← mapErr .parseObjLen (parseLen code b)
  if n = 0 then .ok (.own [], b)
  else if n ≤ b.length then .ok (mk share I b n, b.drop n)
  else .err (.truncated n b.length)

/-- The loop of `parseMsgPackArray`, msgpackparse.go:126-133. -/
def mpElems (p : Bytes → Res (LVal × Bytes)) : Nat → Bytes → Res (List LVal × Bytes)
  | 0, b => .ok ([], b)
  | n + 1, b => do
    let (v, b) ← p b
    let (vs, b) ← mpElems p n b
    .ok (v :: vs, b)

/-- `parseMsgPackArray`, msgpackparse.go:113-135. -/
def mpArray (p : Bytes → Res (LVal × Bytes)) (code : UInt8) (b : Bytes) : Res (LVal × Bytes) := do
  let (n, b) ← parseArrLen code b
  let (vs, b) ← mpElems p n b
  .ok (.arr vs, b)

/-- The loop of `parseMsgPackObject`, msgpackparse.go:85-107. -/
def mpMembers (E : Env) (m : Mem) (share : Bool) (I : Input) (p : Bytes → Res (LVal × Bytes)) : Nat → Bool → List (Ref × LVal) → Bytes → Res (LVal × Bytes)
  | 0, ku, kvs, b => .ok (.obj ku kvs, b)
  | n + 1, ku, kvs, b => do
    let (code, b) ← readCode b
    let (key, b) ← mpStr share I code b
    let (v, b) ← p b
    let o := setKeyL E m ku kvs key v
    mpMembers E m share I p n o.1 o.2 b

/-- `parseMsgPackObject`, msgpackparse.go:67-110. -/
def mpObject (E : Env) (m : Mem) (share : Bool) (I : Input) (p : Bytes → Res (LVal × Bytes)) (code : UInt8) (b : Bytes) : Res (LVal × Bytes) := do
  let (n, b) ← parseMapLen code b
  if n = 0 then .ok (.obj false [], b)
  else
    match b with
    | [] => .panic
    | k :: _ => if !(isStr k) then .err .mapKey else mpMembers E m share I p n false [] b

/-- The extension branch, msgpackparse.go:286-325. -/
def mpExt (E : Env) (share : Bool) (I : Input) (code : UInt8) (b : Bytes) : Res (LVal × Bytes) := do
  let (n, b) ← parseExtLen code b
  if b.length < n then .err (.truncated n b.length)
  else do
    let tail ← sliceFrom (n + 1) b
    match b with
    | [] => .panic
    | ty :: _ =>
      if isTime code ty then do
        let c ← parseTime E code b
        .ok (.lit (.dateTime c), tail)
      else .ok (.exbin 0 (mk share I b (n + 1)), tail)

/-- The binary branch, msgpackparse.go:268-285. -/
def mpBin (share : Bool) (I : Input) (code : UInt8) (b : Bytes) : Res (LVal × Bytes) := do
  let (n, b) ← parseLen code b
  if n ≤ b.length then .ok (.bin 0 (mk share I b n), b.drop n)
  else .err (.truncated n b.length)

/-- `parseMsgPackValue`, msgpackparse.go:158-328. The branches that make no use of `sharebinary` are those of `MsgPack.parseValue`. -/
def mpValue (E : Env) (m : Mem) (share : Bool) (I : Input) : Nat → Bytes → Res (LVal × Bytes)
  | 0, _ => .loop
  | fuel + 1, b0 => do
    let (code, b) ← readCode b0
    if isStr code then do
      let (s, b) ← mpStr share I code b
      .ok (.str s, b)
    else if isArray code then mpArray (mpValue E m share I fuel) code b
    else if isMap code then mpObject E m share I (mpValue E m share I fuel) code b
    else if isBin code then mpBin share I code b
    else if isExt code then mpExt E share I code b
    else do
      let (v, b) ← MsgPack.parseValue E (fuel + 1) b0
      .ok (.lit v, b)

/-- `NewValueFromMsgPack`, msgpackparse.go:487-499. -/
def newMsgPack (E : Env) (m : Mem) (share : Bool) (I : Input) : Res LVal := do
  let (v, _) ← mpValue E m share I (I.bytes.length + 1) I.bytes
  .ok v

/-! ## JSON -/

/-- A parsed string, jsonparse.go:448-463: `s` at the beginning of `b`. -/
def jsStr (E : Env) (share : Bool) (I : Input) (b s : Bytes) : LVal :=
  match E.jsonTime s with
  | some d => .lit (.dateTime d)
  | none => .raw (mk share I b s.length)

mutual
/-- `parseJsonValue`, jsonparse.go:434-488. -/
def jsValue (E : Env) (share : Bool) (I : Input) : Nat → Bytes → Res (LVal × Bytes)
  | 0, _ => .loop
  | fuel + 1, b =>
    if b.length = 0 then .err (.json .noObjBack 0 b)
    else do
      let b0 ← Bson.at_ b 0
      if b0 == 123 then do
        let b ← sliceFrom 1 b
        jsObj E share I fuel b
      else if b0 == 91 then do
        let b ← sliceFrom 1 b
        jsArr E share I fuel b
      else if b0 == 34 then do
        let b ← sliceFrom 1 b
        let (s, t) ← Json.parseString b
        .ok (jsStr E share I b s, t)
      else do
        let (v, t) ← Json.parseLit E b0 b
        .ok (.lit v, t)
/-- `parseJsonObj`, jsonparse.go:66-83. -/
def jsObj (E : Env) (share : Bool) (I : Input) : Nat → Bytes → Res (LVal × Bytes)
  | 0, _ => .loop
  | fuel + 1, oldb =>
    let (b, skiplen) := Json.skipWB oldb
    if b.length = 0 then .err (.json .noObjBack skiplen oldb)
    else do
      let b0 ← Bson.at_ b 0
      if b0 == 125 then do
        let t ← sliceFrom 1 b
        .ok (.obj false [], t)
      else jsObjLoop E share I fuel b []
/-- The loop of `parseJsonObj`, jsonparse.go:84-143. -/
def jsObjLoop (E : Env) (share : Bool) (I : Input) : Nat → Bytes → List (Ref × LVal) → Res (LVal × Bytes)
  | 0, _, _ => .loop
  | fuel + 1, oldb, kvs => do
    let (b, skiplen) := Json.skipWB oldb
    let start ← Json.headIs b 34
    if !start then .err (.json .noKeyStart skiplen oldb)
    else do
      let kb ← sliceFrom 1 b
      let (k, oldb) ← Json.parseKey kb
      let (b, skiplen) := Json.skipWB oldb
      let colon ← Json.headIs b 58
      if !colon then .err (.json .noKVSplit skiplen oldb)
      else do
        let b ← sliceFrom 1 b
        let (v, oldb) ← jsValue E share I fuel (Json.skipWB b).1
        let (b, skiplen) := Json.skipWB oldb
        if b.length = 0 then .err (.json .noObjBack skiplen oldb)
        else do
          let x ← Bson.at_ b 0
          if x == 44 then do
            let b ← sliceFrom 1 b
            jsObjLoop E share I fuel b (kvs ++ [(mk share I kb k.length, v)])
          else if x == 125 then do
            let b ← sliceFrom 1 b
            .ok (.obj false (kvs ++ [(mk share I kb k.length, v)]), b)
          else .err (.json .noValueSplit skiplen oldb)
/-- `parseJsonArray`, jsonparse.go:291-308. -/
def jsArr (E : Env) (share : Bool) (I : Input) : Nat → Bytes → Res (LVal × Bytes)
  | 0, _ => .loop
  | fuel + 1, oldb =>
    let (b, skiplen) := Json.skipWB oldb
    if b.length = 0 then .err (.json .noArrBack skiplen oldb)
    else do
      let b0 ← Bson.at_ b 0
      if b0 == 93 then do
        let t ← sliceFrom 1 b
        .ok (.arr [], t)
      else jsArrLoop E share I fuel b []
/-- The loop of `parseJsonArray`, jsonparse.go:309-342. -/
def jsArrLoop (E : Env) (share : Bool) (I : Input) : Nat → Bytes → List LVal → Res (LVal × Bytes)
  | 0, _, _ => .loop
  | fuel + 1, oldb, xs => do
    let (v, oldb) ← jsValue E share I fuel (Json.skipWB oldb).1
    let (b, skiplen) := Json.skipWB oldb
    if b.length = 0 then .err (.json .noArrBack skiplen oldb)
    else do
      let x ← Bson.at_ b 0
      if x == 44 then do
        let b ← sliceFrom 1 b
        jsArrLoop E share I fuel b (xs ++ [v])
      else if x == 93 then do
        let b ← sliceFrom 1 b
        .ok (.arr (xs ++ [v]), b)
      else .err (.json .noValueSplit skiplen oldb)
end

/-- `NewValueFromJson`, jsonparse.go:410-432. -/
def newJson (E : Env) (share : Bool) (I : Input) : Res LVal := do
  let (b, _) := Json.skipWB I.bytes
  let (v, tail) ← jsValue E share I (3 * b.length + 3) b
  let (r, skiplen) := Json.skipWB tail
  if r.length > 0 then .err (.json .invalidate skiplen tail)
  else .ok v

/-! ## BSON -/

/-- The binary branch of `parseValue`, bson_parse.go:176-206, with `SetBinary(_, !sharebinary)` on a value without content. -/
def bsBinary (share : Bool) (I : Input) (b : Bytes) : Res (Nat × LVal) := do
  let n ← Bson.uint32 I.hid b
  let b ← sliceFrom 4 b
  let sub ← Bson.at_ b 0
  if sub == 2 then do
    let b ← sliceFrom 5 b
    let n ← Bson.uint32 I.hid b
    let b ← sliceFrom 9 b
    if n > b.length then .err .invalidBson
    else do
      let _ ← Bson.sliceTo I.hid n b
      .ok (9 + n, .bin 0 (mk share I b n))
  else do
    let _ ← Bson.sliceTo I.hid (n + 1) b
    .ok (4 + (n + 1), .bin 0 (mk share I b (n + 1)))

/-- `parseValue`, bson_parse.go:158-255. The branches that make no use of `sharebinary` are those of `Bson.parseSimple`. -/
def bsSimple (E : Env) (share : Bool) (I : Input) (ty : UInt8) (b : Bytes) : Res (Nat × LVal) :=
  if ty == 0x02 then do
    let n ← Bson.uint32 I.hid b
    let _ ← if n = 0 then .panic else Bson.slice I.hid 4 (4 + n - 1) b
    .ok (4 + n, .str (mkAt share I b 4 (n - 1)))
  else if ty == 0x05 then bsBinary share I b
  else if ty == 0x07 then do
    let _ ← Bson.sliceTo I.hid 12 b
    .ok (12, .bin 7 (mk share I b 12))
  else if ty == 0x13 then do
    let _ ← Bson.sliceTo I.hid 16 b
    .ok (16, .bin 19 (mk share I b 16))
  else do
    let (n, v) ← Bson.parseSimple E I.hid ty b
    .ok (n, .lit v)

/-- A node handed out by `getValue` or `Reset`. -/
def blankL : VT → LVal
  | .object => .obj false []
  | .array => .arr []
  | _ => .lit .null

/-- `SetKeyCached`/`SetIndexCached` for an existing element, dxvalue.go:1138-1146. -/
def settleL (tp : VT) : LVal → LVal
  | .obj ku kvs => if tp = .object then .obj ku kvs else blankL tp
  | .arr xs => if tp = .array then .arr xs else blankL tp
  | .lit v => if v.vt = tp then .lit v else blankL tp
  | _ => blankL tp

mutual
/-- `parseBsonDocument`, bson_parse.go:24-88. -/
def bsDoc (E : Env) (m : Mem) (share : Bool) (I : Input) : Nat → Bytes → Bool → List (Ref × LVal) → Res (Nat × LVal)
  | 0, _, _, _ => .loop
  | fuel + 1, b, ku, kvs =>
    if b.length ≤ 4 then .err .badBsonLen
    else do
      let docLen ← Bson.uint32 I.hid b
      if docLen > b.length then .err .badBsonLen
      else do
        let o ← bsDocLoop E m share I fuel b docLen 4 ku kvs
        .ok (docLen, o)
/-- The loop of `parseBsonDocument`, bson_parse.go:38-86. -/
def bsDocLoop (E : Env) (m : Mem) (share : Bool) (I : Input) : Nat → Bytes → Nat → Nat → Bool → List (Ref × LVal) → Res LVal
  | 0, _, _, _, _, _ => .loop
  | fuel + 1, b, docLen, pi, ku, kvs =>
    if pi < docLen then do
      let ty ← Bson.at_ b pi
      let pi := pi + 1
      match (b.drop pi).idxOf? 0 with
      | none => .err .invalidBson
      | some k => do
        let key := mk share I (b.drop pi) k
        let pi := pi + k + 1
        let tp := Bson.targetType ty
        match indexByNameL E m ku kvs (key.read m) with
        | (some i, ku', kvs') => do
          let cur := settleL tp ((kvs'[i]?.map Prod.snd).getD (.lit .nil))
          let (n, v) ← bsElem E m share I fuel ty (b.drop pi) cur
          let kvs'' := kvs'.modify i (fun kv => (kv.1, v))
          let pi := pi + n
          if pi = docLen - 1 ∧ b[pi]? = some 0 then .ok (.obj ku' kvs'')
          else bsDocLoop E m share I fuel b docLen pi ku' kvs''
        | (none, ku', kvs') => do
          let (n, v) ← bsElem E m share I fuel ty (b.drop pi) (blankL tp)
          let kvs'' := kvs' ++ [(key, v)]
          let pi := pi + n
          if pi = docLen - 1 ∧ b[pi]? = some 0 then .ok (.obj ku' kvs'')
          else bsDocLoop E m share I fuel b docLen pi ku' kvs''
    else .ok (.obj ku kvs)
/-- The `switch btype` of bson_parse.go:56-81 and 125-150. -/
def bsElem (E : Env) (m : Mem) (share : Bool) (I : Input) : Nat → UInt8 → Bytes → LVal → Res (Nat × LVal)
  | 0, _, _, _ => .loop
  | fuel + 1, ty, b, cur =>
    if ty == 0x04 then
      match cur with
      | .arr xs => bsArr E m share I fuel b xs
      | _ => .panic -- not reached
    else if ty == 0x03 then
      match cur with
      | .obj ku kvs => bsDoc E m share I fuel b ku kvs
      | _ => .panic -- not reached
    else bsSimple E share I ty b
/-- `parseBsonArray`, bson_parse.go:91-156. -/
def bsArr (E : Env) (m : Mem) (share : Bool) (I : Input) : Nat → Bytes → List LVal → Res (Nat × LVal)
  | 0, _, _ => .loop
  | fuel + 1, b, xs => do
    let docLen ← Bson.uint32 I.hid b
    if docLen > b.length then .err .badBsonLen
    else do
      let o ← bsArrLoop E m share I fuel b docLen 4 xs
      .ok (docLen, o)
/-- The loop of `parseBsonArray`, bson_parse.go:102-154. -/
def bsArrLoop (E : Env) (m : Mem) (share : Bool) (I : Input) : Nat → Bytes → Nat → Nat → List LVal → Res LVal
  | 0, _, _, _, _ => .loop
  | fuel + 1, b, docLen, pi, xs =>
    if pi < docLen then do
      let ty ← Bson.at_ b pi
      let pi := pi + 1
      match (b.drop pi).idxOf? 0 with
      | none => .err .invalidBson
      | some k => do
        let key := (b.drop pi).take k
        let idx : Int := ((E.strToInt key).map BitVec.toInt).getD (-1)
        if idx = -1 then .err .bsonArrayIndex
        else do
          let pi := pi + k + 1
          let tp := Bson.targetType ty
          let i := idx.toNat
          if 0 ≤ idx ∧ i < xs.length then do
            let cur := settleL tp ((xs[i]?).getD (.lit .nil))
            let (n, v) ← bsElem E m share I fuel ty (b.drop pi) cur
            let xs' := xs.set i v
            let pi := pi + n
            if pi = docLen - 1 ∧ b[pi]? = some 0 then .ok (.arr xs')
            else bsArrLoop E m share I fuel b docLen pi xs'
          else do
            let (n, v) ← bsElem E m share I fuel ty (b.drop pi) (blankL tp)
            let xs' := xs ++ [v]
            let pi := pi + n
            if pi = docLen - 1 ∧ b[pi]? = some 0 then .ok (.arr xs')
            else bsArrLoop E m share I fuel b docLen pi xs'
    else .ok (.arr xs)
end

/-- `NewValueFromBson`, bson_parse.go:257-270. -/
def newBson (E : Env) (m : Mem) (share : Bool) (I : Input) : Res LVal := do
  let (_, v) ← bsDoc E m share I (2 * I.bytes.length + 2) I.bytes false []
  .ok v

end Dxs.Buf
