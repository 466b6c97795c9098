import Verif.Bson.Model

/-!
# JSON (jsonparse.go)

Decoder and encoders on trees. `sharebinary` and the value cache only decide where the result lives, not
what it is; they are modelled in the heap layer. The `tail` returned along with an error is not modelled
(no caller uses it).
-/

namespace Dxs.Json

open MsgPack (sliceFrom)
open Bson (at_)

/-- `b[:n]` for a slice without spare capacity. Every use below is preceded by a length check, which is what
C21 establishes; so spare capacity is irrelevant. -/
def upTo (n : Nat) (b : Bytes) : Res Bytes := if n ≤ b.length then .ok (b.take n) else .panic

/-- The four whitespace bytes of jsonparse.go:627, 631. -/
def isWB (c : UInt8) : Bool := c == 0x20 || c == 0x0A || c == 0x09 || c == 0x0D

/-- The loop of `skipWB`, jsonparse.go:630-635, from index `i` on. -/
def skipLoop : Bytes → Nat → Bytes × Nat
  | [], _ => ([], 0)
  | c :: r, i => if isWB c then skipLoop r (i + 1) else (c :: r, i - 1)

/-- `skipWB`, jsonparse.go:623-636. -/
def skipWB (b : Bytes) : Bytes × Nat :=
  match b with
  | [] => (b, 0)
  | c :: r => if c > 0x20 then (b, 0) else if !isWB c then (b, 0) else skipLoop r 1

/-- `bytes.IndexByte(b, '"')`. -/
def quoteIdx (b : Bytes) : Option Nat := b.idxOf? 34

/-- jsonparse.go:263-266: `for i > 0 && b[i-1] == '\\' { i-- }`. -/
def backUp (b : Bytes) : Nat → Nat
  | 0 => 0
  | i + 1 => if b[i]? = some 92 then backUp b i else i + 1

/-- `!(n == 0 || b[n-1] != '\\')`, jsonparse.go:254, 282: is the quote at `n` preceded by a backslash? -/
def afterBackslash (b : Bytes) (n : Nat) : Res Bool :=
  if n = 0 then .ok Bool.false else do
    let x ← at_ b (n - 1)
    .ok (x == 92)

/-- `!(len(b) == 0 || b[0] != c)`, jsonparse.go:88, 103. -/
def headIs (b : Bytes) (c : UInt8) : Res Bool :=
  if b.length = 0 then .ok Bool.false else do
    let x ← at_ b 0
    .ok (x == c)

/-- The loop of `parseJsonString`, jsonparse.go:261-288: `ss` the whole input, `b` the part still searched,
`n` the position of a quote in `b` that follows a backslash. -/
def strLoop (ss : Bytes) : Nat → Bytes → Nat → Res (Bytes × Bytes)
  | 0, _, _ => .loop
  | fuel + 1, b, n => do
    let i := backUp b (n - 1)
    if (n - i) % 2 = 0 then do
      let s ← upTo (ss.length - b.length + n) ss
      let t ← sliceFrom (n + 1) b
      .ok (s, t)
    else do
      let b ← sliceFrom (n + 1) b
      match quoteIdx b with
      | none => .err (.json .noStrEnd 0 [])
      | some n =>
        let esc ← afterBackslash b n
        if esc then strLoop ss fuel b n
        else do
          let s ← upTo (ss.length - b.length + n) ss
          let t ← sliceFrom (n + 1) b
          .ok (s, t)

/-- `parseJsonString`, jsonparse.go:246-289, called behind the opening quote. Result: raw text and tail. -/
def parseString (b : Bytes) : Res (Bytes × Bytes) :=
  match quoteIdx b with
  | none => .err (.json .noStrEnd 0 [])
  | some n => do
    let esc ← afterBackslash b n
    if esc then strLoop b (b.length + 1) b n
    else do
      let s ← upTo n b
      let t ← sliceFrom (n + 1) b
      .ok (s, t)

/-- `parseJsonKey`, jsonparse.go:222-244. The loop calls `parseJsonString` at every backslash but discards
its results, so the key ends at the first quote, escaped or not. (`parseJsonString` never panics and always
returns, see `Json/Strings.lean`, so dropping the call changes nothing.) -/
def parseKey (b : Bytes) : Res (Bytes × Bytes) :=
  match quoteIdx b with
  | some i => do
    let k ← upTo i b
    let t ← sliceFrom (i + 1) b
    .ok (k, t)
  | none => .err (.json .noKeyStart b.length [])

/-- The bytes accepted inside a number, jsonparse.go:592. -/
def isNumCh (c : UInt8) : Bool :=
  (48 ≤ c && c ≤ 57) || c == 46 || c == 45 || c == 101 || c == 69 || c == 43

/-- `bytes.EqualFold(xs, "inf")` and the same for `"nan"`, for three-byte `xs` (simple folding of these
letters is ASCII folding). -/
def foldIs (xs name : Bytes) : Bool :=
  xs.map (fun c => if 65 ≤ c ∧ c ≤ 90 then c + 32 else c) == name

/-- `i == 0 || i == 1 && (b[0] == '-' || b[0] == '+')`, jsonparse.go:595. -/
def noNumber (b : Bytes) (i : Nat) : Res Bool :=
  if i = 0 then .ok Bool.true
  else if i = 1 then do
    let x ← at_ b 0
    .ok (x == 45 || x == 43)
  else .ok Bool.false

/-- The loop of `parseJsonNum`, jsonparse.go:587-620: `i` bytes of `b` were read, `rest` follows. -/
def numLoop (E : Env) (b : Bytes) : Nat → Bool → Bytes → Res (Val × Bytes)
  | _, _, [] => .ok (.nil, [])
  | i, isfloat, ch :: r => do
    let isfloat := if isfloat then isfloat else ch == 46
    if isNumCh ch then numLoop E b (i + 1) isfloat r
    else do
      let word ← noNumber b i
      if word then do
        let t ← sliceFrom i b
        if t.length ≥ 3 then do
          let xs ← upTo 3 t
          if foldIs xs [105, 110, 102] then do
            let tail ← sliceFrom (i + 3) b
            .ok (.inf, tail)
          else if foldIs xs [110, 97, 110] then do
            let tail ← sliceFrom (i + 3) b
            .ok (.nan, tail)
          else .err .jsonInvalid
        else .err .jsonInvalid
      else do
        let ns ← upTo i b
        let tail ← sliceFrom i b
        if isfloat then .ok (.ofF32 (E.f64to32 ((E.strToFloat ns).getD 0)), tail)
        else .ok (.int 0 ((E.strToInt ns).getD 0), tail)

/-- `parseJsonNum`, jsonparse.go:585-621. -/
def parseNum (E : Env) (b : Bytes) : Res (Val × Bytes) := numLoop E b 0 Bool.false b

/-- A parsed string value, jsonparse.go:448-463: a time if `ParserJsonTime` takes it for one. -/
def strVal (E : Env) (s : Bytes) : Val :=
  match E.jsonTime s with
  | some d => .dateTime d
  | none => .raw s

/-- `blen < 4 || bytes.Compare(b[:4],nullbyte) != 0`, jsonparse.go:479. -/
def notNull (b : Bytes) : Res Bool :=
  if b.length < 4 then .ok Bool.true else do
    let x ← upTo 4 b
    .ok (x != [110, 117, 108, 108])

/-- jsonparse.go:465-487: the literals. -/
def parseLit (E : Env) (b0 : UInt8) (b : Bytes) : Res (Val × Bytes) :=
  if b0 == 116 then
    if b.length < 4 then .err .jsonInvalid
    else do
      let x ← upTo 4 b
      if x != [116, 114, 117, 101] then .err .jsonInvalid
      else do
        let t ← sliceFrom 4 b
        .ok (.tru, t)
  else if b0 == 102 then
    if b.length < 5 then .err .jsonInvalid
    else do
      let x ← upTo 5 b
      if x != [102, 97, 108, 115, 101] then .err .jsonInvalid
      else do
        let t ← sliceFrom 5 b
        .ok (.fls, t)
  else if b0 == 110 then do
    let bad ← notNull b
    if bad then
      if b.length ≥ 3 then do
        let x ← upTo 3 b
        if x != [110, 97, 110] then do
          let t ← sliceFrom 3 b
          .ok (.nan, t)
        else .err .jsonInvalid
      else .err .jsonInvalid
    else do
      let t ← sliceFrom 4 b
      .ok (.null, t)
  else parseNum E b

mutual
/-- `parseJsonValue`, jsonparse.go:434-488. Fuel: one unit per call and per loop round. -/
def parseValue (E : Env) : Nat → Bytes → Res (Val × Bytes)
  | 0, _ => .loop
  | fuel + 1, b =>
    if b.length = 0 then .err (.json .noObjBack 0 b)
    else do
      let b0 ← at_ b 0
      if b0 == 123 then do
        let b ← sliceFrom 1 b
        parseObj E fuel b
      else if b0 == 91 then do
        let b ← sliceFrom 1 b
        parseArr E fuel b
      else if b0 == 34 then do
        let b ← sliceFrom 1 b
        let (s, t) ← parseString b
        .ok (strVal E s, t)
      else parseLit E b0 b
/-- `parseJsonObj`, jsonparse.go:66-83, up to the loop. -/
def parseObj (E : Env) : Nat → Bytes → Res (Val × Bytes)
  | 0, _ => .loop
  | fuel + 1, oldb =>
    let (b, skiplen) := skipWB oldb
    if b.length = 0 then .err (.json .noObjBack skiplen oldb)
    else do
      let b0 ← at_ b 0
      if b0 == 125 then do
        let t ← sliceFrom 1 b
        .ok (.obj Bool.false [], t)
      else objLoop E fuel b []
/-- The loop of `parseJsonObj`, jsonparse.go:84-143. -/
def objLoop (E : Env) : Nat → Bytes → List (Bytes × Val) → Res (Val × Bytes)
  | 0, _, _ => .loop
  | fuel + 1, oldb, kvs => do
    let (b, skiplen) := skipWB oldb
    let start ← headIs b 34
    if !start then .err (.json .noKeyStart skiplen oldb)
    else do
      let b ← sliceFrom 1 b
      let (k, oldb) ← parseKey b
      let (b, skiplen) := skipWB oldb
      let colon ← headIs b 58
      if !colon then .err (.json .noKVSplit skiplen oldb)
      else do
        let b ← sliceFrom 1 b
        let (v, oldb) ← parseValue E fuel (skipWB b).1
        let (b, skiplen) := skipWB oldb
        if b.length = 0 then .err (.json .noObjBack skiplen oldb)
        else do
          let x ← at_ b 0
          if x == 44 then do
            let b ← sliceFrom 1 b
            objLoop E fuel b (kvs ++ [(k, v)])
          else if x == 125 then do
            let b ← sliceFrom 1 b
            .ok (.obj Bool.false (kvs ++ [(k, v)]), b)
          else .err (.json .noValueSplit skiplen oldb)
/-- `parseJsonArray`, jsonparse.go:291-308, up to the loop. -/
def parseArr (E : Env) : Nat → Bytes → Res (Val × Bytes)
  | 0, _ => .loop
  | fuel + 1, oldb =>
    let (b, skiplen) := skipWB oldb
    if b.length = 0 then .err (.json .noArrBack skiplen oldb)
    else do
      let b0 ← at_ b 0
      if b0 == 93 then do
        let t ← sliceFrom 1 b
        .ok (.arr [], t)
      else arrLoop E fuel b []
/-- The loop of `parseJsonArray`, jsonparse.go:309-342. -/
def arrLoop (E : Env) : Nat → Bytes → List Val → Res (Val × Bytes)
  | 0, _, _ => .loop
  | fuel + 1, oldb, xs => do
    let (v, oldb) ← parseValue E fuel (skipWB oldb).1
    let (b, skiplen) := skipWB oldb
    if b.length = 0 then .err (.json .noArrBack skiplen oldb)
    else do
      let x ← at_ b 0
      if x == 44 then do
        let b ← sliceFrom 1 b
        arrLoop E fuel b (xs ++ [v])
      else if x == 93 then do
        let b ← sliceFrom 1 b
        .ok (.arr (xs ++ [v]), b)
      else .err (.json .noValueSplit skiplen oldb)
end

/-- `NewValueFromJson`, jsonparse.go:410-432. A top-level number that ends with the input comes back as
`.nil` (a nil pointer and no error). -/
def newValueFromJson (E : Env) (b : Bytes) : Res Val := do
  let (b, _) := skipWB b
  let (v, tail) ← parseValue E (3 * b.length + 3) b
  let (r, skiplen) := skipWB tail
  if r.length > 0 then .err (.json .invalidate skiplen tail)
  else .ok v

/-- `(*ErrorParseJson).Error`, jsonparse.go:54-62: does the slice expression succeed? (The bytes are then
formatted, which cannot fail; other errors are plain strings.) -/
def errorString : Err → Res Bytes
  | .json _ idx b =>
    let l := if b.length > idx + 32 then idx + 32 else b.length
    if idx ≤ l then .ok ((b.take l).drop idx) else .panic
  | _ => .ok []

/-! ## Encoding -/

/-- `JsonEscapeStyle`, jsonparse.go:638-643. -/
inductive Style where
  | noEscape | allEscape | onlyAnsi
deriving DecidableEq, Repr

/-- jsonparse.go:660-672, 754-765: how a key is written. For `noEscape` the keys are unescaped first
(`UnEscapestrs`); otherwise keys already unescaped are escaped and raw keys are copied. -/
def keyText (E : Env) (st : Style) (ku : Bool) (k : Bytes) : Bytes :=
  match st with
  | .noEscape => if ku then k else E.unesc k
  | .allEscape => if ku then E.esc Bool.true k else k
  | .onlyAnsi => if ku then E.esc Bool.false k else k

/-- jsonparse.go:681-685, 789-793: the text of a `VT_String`. -/
def strText (E : Env) (st : Style) (s : Bytes) : Bytes :=
  match st with
  | .noEscape => s
  | .allEscape => E.esc Bool.true s
  | .onlyAnsi => E.esc Bool.false s

/-- jsonparse.go:713-723, 823-833: a time. `escDT` is the parameter `escapeDatetime`.
`"/Date(` is 34 47 68 97 116 101 40, `)/"` is 41 47 34. -/
def timeText (E : Env) (escDT : Bool) (c : BitVec 64) : Bytes :=
  if escDT then [34, 47, 68, 97, 116, 101, 40] ++ decInt ((E.unixSec c * 1000).toInt) ++ [41, 47, 34]
  else 34 :: E.fmtTime c ++ [34]

mutual
/-- `Value2Json`, jsonparse.go:646-729. A nil member panics (`v.DataType`). -/
def toJson (E : Env) (st : Style) (escDT : Bool) : Val → Bytes → Res Bytes
  | .nil, _ => .panic
  | .obj ku kvs, dst => do
    let dst ← toJsonM E st escDT ku kvs 0 (dst ++ [123])
    .ok (dst ++ [125])
  | .arr xs, dst => do
    let dst ← toJsonL E st escDT xs 0 (dst ++ [91])
    .ok (dst ++ [93])
  | .str s, dst => .ok (dst ++ [34] ++ strText E st s ++ [34])
  | .raw s, dst => .ok (dst ++ [34] ++ s ++ [34])
  | .float c, dst => .ok (dst ++ E.fmtFloat (E.f32to64 (lo32 c)))
  | .double c, dst => .ok (dst ++ E.fmtFloat c)
  | .tru, dst => .ok (dst ++ [116, 114, 117, 101])
  | .fls, dst => .ok (dst ++ [102, 97, 108, 115, 101])
  | .int _ c, dst => .ok (dst ++ decInt c.toInt)
  | .dateTime c, dst => .ok (dst ++ timeText E escDT c)
  | .null, dst => .ok (dst ++ [110, 117, 108, 108])
  | .bin _ _, dst => .ok dst
  | .exbin _ _, dst => .ok dst
  | .nan, dst => .ok dst
  | .inf, dst => .ok dst
/-- The member loop, jsonparse.go:653-676. -/
def toJsonM (E : Env) (st : Style) (escDT : Bool) (ku : Bool) : List (Bytes × Val) → Nat → Bytes → Res Bytes
  | [], _, dst => .ok dst
  | (k, v) :: kvs, i, dst => do
    let dst := if i ≠ 0 then dst ++ [44, 34] else dst ++ [34]
    let dst := dst ++ keyText E st ku k ++ [34, 58]
    let dst ← toJson E st escDT v dst
    toJsonM E st escDT ku kvs (i + 1) dst
/-- The element loop, jsonparse.go:690-699. -/
def toJsonL (E : Env) (st : Style) (escDT : Bool) : List Val → Nat → Bytes → Res Bytes
  | [], _, dst => .ok dst
  | v :: vs, i, dst => do
    let dst := if i ≠ 0 then dst ++ [44] else dst
    let dst ← match v with
      | .nil => .ok (dst ++ [110, 117, 108, 108])
      | v => toJson E st escDT v dst
    toJsonL E st escDT vs (i + 1) dst
end

/-- `formatSpace`, jsonparse.go:740-744: two spaces per level. -/
def spaces : Nat → Bytes
  | 0 => []
  | n + 1 => [32, 32] ++ spaces n

/-- jsonparse.go:772-786: a binary. `v.fbinary[:12]`: simplification, the binary has no spare capacity, so a
short one panics. `{"$oid":"`, `{"Decimal128":"`, `Bin(`. -/
def binText (E : Env) (ext : UInt8) (b : Bytes) : Res Bytes :=
  if ext == 7 then do
    let x ← upTo 12 b
    .ok ([123, 34, 36, 111, 105, 100, 34, 58, 34] ++ E.bin2Hex x ++ [34, 125])
  else if ext == 0x13 then do
    let x ← upTo 16 b
    .ok ([123, 34, 68, 101, 99, 105, 109, 97, 108, 49, 50, 56, 34, 58, 34] ++ E.bin2Hex x ++ [34, 125])
  else do
    let x ← upTo 12 b
    .ok ([66, 105, 110, 40] ++ E.bin2Hex x ++ [41])

mutual
/-- `formatValue`, jsonparse.go:735-839. -/
def format (E : Env) (st : Style) (escDT : Bool) : Val → Nat → Bytes → Res Bytes
  | .nil, _, _ => .panic
  | .obj ku kvs, level, dst => do
    let dst ← formatM E st escDT ku kvs 0 level (dst ++ [123, 13, 10])
    .ok (dst ++ [13, 10] ++ spaces level ++ [125])
  | .arr xs, level, dst => do
    let dst ← formatL E st escDT xs 0 level (dst ++ [91, 13, 10])
    .ok (dst ++ [13, 10] ++ spaces level ++ [93])
  | .bin ext b, _, dst => do
    let x ← binText E ext b
    .ok (dst ++ x)
  | .str s, _, dst => .ok (dst ++ [34] ++ strText E st s ++ [34])
  | .raw s, _, dst => .ok (dst ++ [34] ++ s ++ [34])
  | .float c, _, dst => .ok (dst ++ E.fmtFloat (E.f32to64 (lo32 c)))
  | .double c, _, dst => .ok (dst ++ E.fmtFloat c)
  | .tru, _, dst => .ok (dst ++ [116, 114, 117, 101])
  | .fls, _, dst => .ok (dst ++ [102, 97, 108, 115, 101])
  | .int _ c, _, dst => .ok (dst ++ decInt c.toInt)
  | .dateTime c, _, dst => .ok (dst ++ timeText E escDT c)
  | .null, _, dst => .ok (dst ++ [110, 117, 108, 108])
  | .exbin _ _, _, dst => .ok dst
  | .nan, _, dst => .ok dst
  | .inf, _, dst => .ok dst
/-- The member loop, jsonparse.go:748-768. -/
def formatM (E : Env) (st : Style) (escDT : Bool) (ku : Bool) :
    List (Bytes × Val) → Nat → Nat → Bytes → Res Bytes
  | [], _, _, dst => .ok dst
  | (k, v) :: kvs, i, level, dst => do
    let dst := if i ≠ 0 then dst ++ [44, 13, 10] else dst
    let dst := dst ++ spaces (level + 1) ++ [34] ++ keyText E st ku k ++ [34, 58]
    let dst ← format E st escDT v (level + 1) dst
    formatM E st escDT ku kvs (i + 1) level dst
/-- The element loop, jsonparse.go:797-807. -/
def formatL (E : Env) (st : Style) (escDT : Bool) : List Val → Nat → Nat → Bytes → Res Bytes
  | [], _, _, dst => .ok dst
  | v :: vs, i, level, dst => do
    let dst := if i ≠ 0 then dst ++ [44, 13, 10] else dst
    let dst := dst ++ spaces (level + 1)
    let dst ← match v with
      | .nil => .ok (dst ++ [110, 117, 108, 108])
      | v => format E st escDT v (level + 1) dst
    formatL E st escDT vs (i + 1) level dst
end

/-- `Value2Json` with an empty buffer. -/
def value2Json (E : Env) (st : Style) (escDT : Bool) (v : Val) : Res Bytes := toJson E st escDT v []
/-- `Value2FormatJson`, jsonparse.go:731-733, with an empty buffer. -/
def value2FormatJson (E : Env) (st : Style) (escDT : Bool) (v : Val) : Res Bytes := format E st escDT v 0 []

end Dxs.Json
