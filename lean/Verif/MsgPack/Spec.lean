import Verif.Assoc

/-!
# MessagePack specification (independent of the model)

Transcribed from https://github.com/msgpack/msgpack/blob/master/spec.md (the document the code cites in
msgpack_codes.go:3). `Enc d bs` says that `bs` is *a* serialisation of the data item `d`: every
alternative the specification allows is included. Map keys are restricted to strings, because the package
rejects all others (msgpackparse.go:18).
-/

namespace Dxs.MsgPack

/-- A MessagePack data item. -/
inductive MData where
  | nil
  | bool (b : Bool)
  | int (n : Int)
  | f32 (x : BitVec 32)
  | f64 (x : BitVec 64)
  | str (s : Bytes)
  | bin (s : Bytes)
  | ext (ty : UInt8) (p : Bytes)
  | ts (sec : Int) (nsec : Nat)
  | arr (xs : List MData)
  | map (kvs : List (Bytes × MData))

namespace Spec

/-- The `k` low-order bytes of `n`, most significant first. -/
def be : Nat → Nat → Bytes
  | 0, _ => []
  | k + 1, n => UInt8.ofNat (n / 256 ^ k) :: be k n

/-- The `k` low-order bytes of the two's complement representation of `n`. -/
def beI (k : Nat) (n : Int) : Bytes := be k (n % (256 ^ k : Int)).toNat

/-- "Int format family". -/
def IntFmt (n : Int) (bs : Bytes) : Prop :=
  (0 ≤ n ∧ n ≤ 127 ∧ bs = [UInt8.ofNat n.toNat]) ∨            -- positive fixint
  (-32 ≤ n ∧ n < 0 ∧ bs = [UInt8.ofNat (256 + n).toNat]) ∨    -- negative fixint
  (0 ≤ n ∧ n < 2 ^ 8 ∧ bs = 0xcc :: be 1 n.toNat) ∨
  (0 ≤ n ∧ n < 2 ^ 16 ∧ bs = 0xcd :: be 2 n.toNat) ∨
  (0 ≤ n ∧ n < 2 ^ 32 ∧ bs = 0xce :: be 4 n.toNat) ∨
  (0 ≤ n ∧ n < 2 ^ 64 ∧ bs = 0xcf :: be 8 n.toNat) ∨
  (-2 ^ 7 ≤ n ∧ n < 2 ^ 7 ∧ bs = 0xd0 :: beI 1 n) ∨
  (-2 ^ 15 ≤ n ∧ n < 2 ^ 15 ∧ bs = 0xd1 :: beI 2 n) ∨
  (-2 ^ 31 ≤ n ∧ n < 2 ^ 31 ∧ bs = 0xd2 :: beI 4 n) ∨
  (-2 ^ 63 ≤ n ∧ n < 2 ^ 63 ∧ bs = 0xd3 :: beI 8 n)

/-- Header of a string of `n` bytes ("str format family"). -/
def StrHdr (n : Nat) (h : Bytes) : Prop :=
  (n ≤ 31 ∧ h = [UInt8.ofNat (0xa0 + n)]) ∨
  (n < 2 ^ 8 ∧ h = 0xd9 :: be 1 n) ∨ (n < 2 ^ 16 ∧ h = 0xda :: be 2 n) ∨ (n < 2 ^ 32 ∧ h = 0xdb :: be 4 n)

/-- Header of a byte array of `n` bytes ("bin format family"). -/
def BinHdr (n : Nat) (h : Bytes) : Prop :=
  (n < 2 ^ 8 ∧ h = 0xc4 :: be 1 n) ∨ (n < 2 ^ 16 ∧ h = 0xc5 :: be 2 n) ∨ (n < 2 ^ 32 ∧ h = 0xc6 :: be 4 n)

/-- Header of an array of `n` items ("array format family"). -/
def ArrHdr (n : Nat) (h : Bytes) : Prop :=
  (n ≤ 15 ∧ h = [UInt8.ofNat (0x90 + n)]) ∨
  (n < 2 ^ 16 ∧ h = 0xdc :: be 2 n) ∨ (n < 2 ^ 32 ∧ h = 0xdd :: be 4 n)

/-- Header of a map of `n` pairs ("map format family"). -/
def MapHdr (n : Nat) (h : Bytes) : Prop :=
  (n ≤ 15 ∧ h = [UInt8.ofNat (0x80 + n)]) ∨
  (n < 2 ^ 16 ∧ h = 0xde :: be 2 n) ∨ (n < 2 ^ 32 ∧ h = 0xdf :: be 4 n)

/-- Header (before the type byte) of an extension with `n` bytes of payload ("ext format family"). -/
def ExtHdr (n : Nat) (h : Bytes) : Prop :=
  (n = 1 ∧ h = [0xd4]) ∨ (n = 2 ∧ h = [0xd5]) ∨ (n = 4 ∧ h = [0xd6]) ∨ (n = 8 ∧ h = [0xd7]) ∨
  (n = 16 ∧ h = [0xd8]) ∨
  (n < 2 ^ 8 ∧ h = 0xc7 :: be 1 n) ∨ (n < 2 ^ 16 ∧ h = 0xc8 :: be 2 n) ∨ (n < 2 ^ 32 ∧ h = 0xc9 :: be 4 n)

/-- "Timestamp extension type": timestamp 32, 64 and 96. -/
def TsFmt (sec : Int) (nsec : Nat) (bs : Bytes) : Prop :=
  (0 ≤ sec ∧ sec < 2 ^ 32 ∧ nsec = 0 ∧ bs = 0xd6 :: 0xff :: be 4 sec.toNat) ∨
  (0 ≤ sec ∧ sec < 2 ^ 34 ∧ nsec < 1000000000 ∧ bs = 0xd7 :: 0xff :: be 8 (nsec * 2 ^ 34 + sec.toNat)) ∨
  (-2 ^ 63 ≤ sec ∧ sec < 2 ^ 63 ∧ nsec < 1000000000 ∧
    bs = 0xc7 :: 12 :: 0xff :: (be 4 nsec ++ beI 8 sec))

mutual
/-- `bs` is a MessagePack serialisation of the item. -/
def Enc : MData → Bytes → Prop
  | .nil, bs => bs = [0xc0]
  | .bool b, bs => bs = [if b then 0xc3 else 0xc2]
  | .int n, bs => IntFmt n bs
  | .f32 x, bs => bs = 0xca :: be 4 x.toNat
  | .f64 x, bs => bs = 0xcb :: be 8 x.toNat
  | .str s, bs => ∃ h, StrHdr s.length h ∧ bs = h ++ s
  | .bin s, bs => ∃ h, BinHdr s.length h ∧ bs = h ++ s
  | .ext ty p, bs => ∃ h, ExtHdr p.length h ∧ ty ≠ 0xff ∧ bs = h ++ ty :: p
  | .ts sec nsec, bs => TsFmt sec nsec bs
  | .arr xs, bs => ∃ h body, ArrHdr xs.length h ∧ EncL xs body ∧ bs = h ++ body
  | .map kvs, bs => ∃ h body, MapHdr kvs.length h ∧ EncM kvs body ∧ bs = h ++ body
def EncL : List MData → Bytes → Prop
  | [], bs => bs = []
  | d :: ds, bs => ∃ b1 b2, Enc d b1 ∧ EncL ds b2 ∧ bs = b1 ++ b2
def EncM : List (Bytes × MData) → Bytes → Prop
  | [], bs => bs = []
  | (k, d) :: kvs, bs => ∃ h b1 b2, StrHdr k.length h ∧ Enc d b1 ∧ EncM kvs b2 ∧ bs = h ++ k ++ b1 ++ b2
end

mutual
/-- The item is inside the value space of the package: integers fit in int64. -/
def Fits : MData → Prop
  | .int n => -2 ^ 63 ≤ n ∧ n < 2 ^ 63
  | .arr xs => FitsL xs
  | .map kvs => FitsM kvs
  | _ => True
def FitsL : List MData → Prop
  | [] => True
  | d :: ds => Fits d ∧ FitsL ds
def FitsM : List (Bytes × MData) → Prop
  | [] => True
  | (_, d) :: kvs => Fits d ∧ FitsM kvs
end

mutual
/-- `v` is the value described by the item: same shape, same order, same scalars. A key that occurs more than
once in a map (for the key comparison in force) keeps its first position and gets its last value. -/
def Denotes (E : Env) : MData → Val → Prop
  | .nil, v => v = .null
  | .bool b, v => v = if b then .tru else .fls
  | .int n, v => ∃ c : BitVec 64, v = .int 0 c ∧ c.toInt = n
  | .f32 x, v => v = .float (x.setWidth 64)
  | .f64 x, v => v = .double x
  | .str s, v => v = .str s
  | .bin s, v => v = .bin 0 s
  | .ext ty p, v => v = .exbin 0 (ty :: p)
  | .ts sec nsec, v => v = .dateTime (E.ofUnix (BitVec.ofInt 64 sec) nsec)
  | .arr xs, v => ∃ vs, v = .arr vs ∧ DenotesL E xs vs
  | .map kvs, v => ∃ ku vs, v = .obj ku (Assoc.lastWins E.keyMatch vs) ∧ (kvs ≠ [] → ku = true) ∧
      DenotesM E kvs vs
def DenotesL (E : Env) : List MData → List Val → Prop
  | [], vs => vs = []
  | d :: ds, vs => ∃ v vs', vs = v :: vs' ∧ Denotes E d v ∧ DenotesL E ds vs'
def DenotesM (E : Env) : List (Bytes × MData) → List (Bytes × Val) → Prop
  | [], vs => vs = []
  | (k, d) :: kvs, vs => ∃ v vs', vs = (k, v) :: vs' ∧ Denotes E d v ∧ DenotesM E kvs vs'
end

end Spec

/-- The payload lengths for which `writeExtCode` writes two headers. -/
def fixextLen (n : Nat) : Bool := n == 1 || n == 2 || n == 4 || n == 8 || n == 16

/-! ### values and the data items they stand for -/

mutual
/-- The MessagePack item a value stands for. -/
def data (E : Env) : Val → MData
  | .nil => .nil
  | .null => .nil
  | .tru => .bool true
  | .fls => .bool false
  | .int _ c => .int c.toInt
  | .float c => .f32 (lo32 c)
  | .double c => .f64 c
  | .dateTime c => .ts (E.unixSec c).toInt (E.unixNano c).val
  | .str s => .str s
  | .raw s => .str s
  | .bin _ b => .bin b
  | .exbin _ b => .ext (b.headD 0) b.tail
  | .arr xs => .arr (dataL E xs)
  | .obj _ kvs => .map (dataM E kvs)
  | .nan => .nil
  | .inf => .nil
def dataL (E : Env) : List Val → List MData
  | [] => []
  | v :: vs => data E v :: dataL E vs
def dataM (E : Env) : List (Bytes × Val) → List (Bytes × MData)
  | [] => []
  | (k, v) :: kvs => (k, data E v) :: dataM E kvs
end

mutual
/-- The values MessagePack can carry through this package: all lengths below 2^32; no NAN/INF; extension
values have a type byte different from the timestamp type and a payload whose length is not one of
1, 2, 4, 8, 16 (for those `writeExtCode` is wrong). -/
def Supported : Val → Prop
  | .nan => False
  | .inf => False
  | .str s => s.length < 2 ^ 32
  | .raw s => s.length < 2 ^ 32
  | .bin _ b => b.length < 2 ^ 32
  | .exbin _ b => ∃ t p, b = t :: p ∧ t ≠ 0xff ∧ p.length < 2 ^ 32 ∧ fixextLen p.length = false
  | .arr xs => xs.length < 2 ^ 32 ∧ SupportedL xs
  | .obj _ kvs => kvs.length < 2 ^ 32 ∧ SupportedM kvs
  | _ => True
def SupportedL : List Val → Prop
  | [] => True
  | v :: vs => Supported v ∧ SupportedL vs
def SupportedM : List (Bytes × Val) → Prop
  | [] => True
  | (k, v) :: kvs => k.length < 2 ^ 32 ∧ Supported v ∧ SupportedM kvs
end

mutual
/-- `w` is the same value as `v`, up to what MessagePack cannot carry: a nil pointer and null coincide,
raw and ordinary strings coincide (same bytes), integers keep their value, floats their float32 value,
doubles their bits, times go through (seconds, nanoseconds). Shape, key order and keys are the same. -/
def Same (E : Env) : Val → Val → Prop
  | .nil, w => w = .null
  | .null, w => w = .null
  | .tru, w => w = .tru
  | .fls, w => w = .fls
  | .int _ c, w => w = .int 0 c
  | .float c, w => ∃ c', w = .float c' ∧ lo32 c' = lo32 c
  | .double c, w => w = .double c
  | .dateTime c, w => w = .dateTime (E.ofUnix (E.unixSec c) (E.unixNano c).val)
  | .str s, w => w = .str s
  | .raw s, w => w = .str s
  | .bin _ b, w => w = .bin 0 b
  | .exbin _ b, w => w = .exbin 0 b
  | .arr xs, w => ∃ ys, w = .arr ys ∧ SameL E xs ys
  | .obj _ kvs, w => ∃ ku ys, w = .obj ku ys ∧ SameM E kvs ys
  | .nan, _ => False
  | .inf, _ => False
def SameL (E : Env) : List Val → List Val → Prop
  | [], ys => ys = []
  | v :: vs, ys => ∃ w ws, ys = w :: ws ∧ Same E v w ∧ SameL E vs ws
def SameM (E : Env) : List (Bytes × Val) → List (Bytes × Val) → Prop
  | [], ys => ys = []
  | (k, v) :: kvs, ys => ∃ w ws, ys = (k, w) :: ws ∧ Same E v w ∧ SameM E kvs ws
end

mutual
/-- The keys of every object inside the value are pairwise different (for the key comparison in force). -/
def DistinctKeys (E : Env) : Val → Prop
  | .arr xs => DistinctKeysL E xs
  | .obj _ kvs => (kvs.map Prod.fst).Pairwise (fun a b => E.keyMatch a b = false) ∧ DistinctKeysM E kvs
  | _ => True
def DistinctKeysL (E : Env) : List Val → Prop
  | [] => True
  | v :: vs => DistinctKeys E v ∧ DistinctKeysL E vs
def DistinctKeysM (E : Env) : List (Bytes × Val) → Prop
  | [] => True
  | (_, v) :: kvs => DistinctKeys E v ∧ DistinctKeysM E kvs
end

end Dxs.MsgPack
