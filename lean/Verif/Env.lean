import Verif.Base

/-!
# External functions

The code of /repo calls package DxCommonLib (not part of /repo) and the Go standard library. Those
functions are parameters of the model. All theorems quantify over an arbitrary `Env`; a theorem that needs
a law about one of these functions states it as an explicit hypothesis.
-/

namespace Dxs

/-- A float64, as its bit pattern. -/
abbrev F64 := BitVec 64
/-- A float32, as its bit pattern. -/
abbrev F32 := BitVec 32

/-- The functions outside /repo that the package calls. -/
structure Env where
  /-- `dxsvalue.IgnoreCase` (dxvalue.go:33), a package variable the user may set. -/
  ignoreCase : Bool
  /-- `strings.EqualFold`. -/
  equalFold : Bytes → Bytes → Bool
  /-- `DxCommonLib.ParserEscapeStr`: JSON unescaping. -/
  unesc : Bytes → Bytes
  /-- `DxCommonLib.EscapeJsonbyte(s, escapeAll, dst)` appends this to `dst`. -/
  esc : Bool → Bytes → Bytes
  /-- `DxCommonLib.StrToIntDef(s, def)` is this value, or `def` when it is `none`. -/
  strToInt : Bytes → Option (BitVec 64)
  /-- `DxCommonLib.StrToFloatDef(s, def)` is this value, or `def` when it is `none`. -/
  strToFloat : Bytes → Option F64
  /-- `DxCommonLib.ParseFloat(s)`, `none` when it returns an error. -/
  parseFloat : Bytes → Option F64
  /-- `DxCommonLib.ParserJsonTime(s)`, `none` when the result is `< 0`. -/
  jsonTime : Bytes → Option F64
  /-- `strconv.AppendFloat(_, x, 'f', -1, 64)`. -/
  fmtFloat : F64 → Bytes
  /-- Go conversion `float64(x)` of a float32. -/
  f32to64 : F32 → F64
  /-- Go conversion `float32(x)` of a float64. -/
  f64to32 : F64 → F32
  /-- Go conversion `float64(n)` of an int64. -/
  i64to64 : BitVec 64 → F64
  /-- Go conversion `int64(x)` of a float64. -/
  f64toI : F64 → BitVec 64
  /-- Go conversion `float32(n)` of an int64. -/
  i64to32 : BitVec 64 → F32
  /-- Go conversion `int64(x)` of a float32. -/
  f32toI : F32 → BitVec 64
  /-- Go `==` on float64. -/
  f64eq : F64 → F64 → Bool
  /-- `DxCommonLib.Bin2Hex`. -/
  bin2Hex : Bytes → Bytes
  /-- `TDateTime(x).ToTime().Unix()`. -/
  unixSec : F64 → BitVec 64
  /-- `TDateTime(x).ToTime().Nanosecond()`; Go guarantees `[0, 999999999]`. -/
  unixNano : F64 → Fin 1000000000
  /-- `Time2DelphiTime(time.Unix(sec, nsec))`. -/
  ofUnix : BitVec 64 → Nat → F64
  /-- `TDateTime(x).ToTime().Format("2006-01-02 15:04:05")`. -/
  fmtTime : F64 → Bytes
  /-- `int64(TDateTime(x).ToTime().Sub(1970-01-01 UTC)/time.Millisecond)` (bson_parse.go:395). -/
  unixMilli : F64 → BitVec 64
  /-- `Time2DelphiTime(1970-01-01 UTC + Duration(ms)*Millisecond)` (bson_parse.go:224-225). -/
  ofMilli : BitVec 64 → F64

/-- The key comparison used everywhere in dxvalue.go (e.g. lines 61, 80, 102, 120):
`IgnoreCase && strings.EqualFold(k,name) || k == name`. -/
def Env.keyMatch (E : Env) (k name : Bytes) : Bool :=
  (E.ignoreCase && E.equalFold k name) || k == name

theorem Env.keyMatch_refl (E : Env) (k : Bytes) : E.keyMatch k k = true := by
  simp [Env.keyMatch]

end Dxs
