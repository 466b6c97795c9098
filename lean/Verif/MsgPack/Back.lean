import Verif.MsgPack.Spec

/-! # What a MessagePack item is read as, as a function

The reading of `parseMsgPackValue` (msgpackparse.go:158-328) for items of the specification, and the values that are read as they were written. -/

namespace Dxs.MsgPack.Spec

mutual
/-- What an item is read as. The names of an object count as unescaped if there are any; a repeated name keeps its first place and its last value. -/
def mval (E : Env) : MData → Val
  | .nil => .null
  | .bool b => if b then .tru else .fls
  | .int n => .int 0 (BitVec.ofInt 64 n)
  | .f32 x => .float (x.setWidth 64)
  | .f64 x => .double x
  | .str s => .str s
  | .bin s => .bin 0 s
  | .ext ty p => .exbin 0 (ty :: p)
  | .ts sec nsec => .dateTime (E.ofUnix (BitVec.ofInt 64 sec) nsec)
  | .arr xs => .arr (mvalL E xs)
  | .map kvs => .obj (!kvs.isEmpty) (Assoc.lastWins E.keyMatch (mvalM E kvs))
def mvalL (E : Env) : List MData → List Val
  | [] => []
  | d :: ds => mval E d :: mvalL E ds
def mvalM (E : Env) : List (Bytes × MData) → List (Bytes × Val)
  | [] => []
  | (k, d) :: kvs => (k, mval E d) :: mvalM E kvs
end

mutual
/-- The values MessagePack brings back as they were: no nil, NAN, INF or text with pending escapes; no type numbers; the unused half of a float is zero; times survive seconds and nanoseconds; names distinct and settled (in the empty object: not). -/
def Stays (E : Env) : Val → Prop
  | .null | .tru | .fls | .double _ | .str _ => True
  | .int e _ => e = 0
  | .float c => (lo32 c).setWidth 64 = c
  | .dateTime c => E.ofUnix (E.unixSec c) (E.unixNano c).val = c
  | .bin e _ => e = 0
  | .exbin e b => e = 0 ∧ b ≠ []
  | .arr xs => StaysL E xs
  | .obj ku kvs => ku = !kvs.isEmpty ∧ Assoc.Distinct E.keyMatch kvs ∧ StaysM E kvs
  | .nil | .raw _ | .nan | .inf => False
def StaysL (E : Env) : List Val → Prop
  | [] => True
  | v :: vs => Stays E v ∧ StaysL E vs
def StaysM (E : Env) : List (Bytes × Val) → Prop
  | [] => True
  | (_, v) :: kvs => Stays E v ∧ StaysM E kvs
end

end Dxs.MsgPack.Spec
