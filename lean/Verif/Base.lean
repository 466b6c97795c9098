/-!
# Base definitions

Bytes, the outcome type of a Go function, byte-order helpers and decimal printing.
Nothing in this file models code of /repo by itself; it fixes the vocabulary.
-/

namespace Dxs

/-- A Go `[]byte` / `string`, as the sequence of its bytes. -/
abbrev Bytes := List UInt8

/-- `JsonErrType`, jsonparse.go:12-24. -/
inductive JET where
  | noObjBack | noArrBack | noKeyStart | noKeyEnd | noStrStart | noStrEnd
  | noKVSplit | noValueSplit | invalidate
deriving DecidableEq, Repr

/-- The errors the package returns (`errors.New`/`fmt.Errorf` values are identified by where they arise).
msgpackparse.go:13-19, bson_parse.go:14-18, jsonparse.go:48-52. -/
inductive Err where
  | unknownCode            -- ErrUnKnownCode
  | parseObjLen            -- ErrParseObjLen
  | parseInt               -- ErrParseInt
  | invalidCode            -- ErrInvalidateCode
  | mapKey                 -- ErrMapKey
  | truncated (want have_ : Nat)  -- "msgpack: ... data truncated"
  | extLen (code : UInt8)  -- "msgpack: invalid code=%x decoding ext length"
  | badBsonLen             -- ErrBadBSONDocLen
  | invalidBson            -- ErrInvalidBSON
  | bsonArrayIndex         -- ErrInvalidArrayBsonIndex
  | bsonType               -- "unSupport Bson ValueType"
  | json (ty : JET) (idx : Nat) (parseB : Bytes)  -- *ErrorParseJson
  | jsonInvalid            -- errors.New("无效的Json格式")
  | yaml (line : Bytes)    -- "无效的Yaml格式：%s"
deriving DecidableEq, Repr

/-- Outcome of a Go function: normal return, returned `error`, run-time panic, or (for functions that are
modelled with a fuel argument) "the fuel did not suffice". -/
inductive Res (α : Type) where
  | ok (a : α)
  | err (e : Err)
  | panic
  | loop
deriving DecidableEq, Repr

namespace Res
variable {α β γ : Type}

/-- Sequencing of Go statements: stop at the first error, panic or exhausted fuel. -/
def bind (x : Res α) (f : α → Res β) : Res β :=
  match x with
  | ok a => f a
  | err e => err e
  | panic => panic
  | loop => loop

instance : Monad Res where
  pure := ok
  bind := bind

@[simp] theorem bind_ok (a : α) (f : α → Res β) : (Res.ok a >>= f) = f a := rfl
@[simp] theorem bind_err (e : Err) (f : α → Res β) : (Res.err e >>= f) = Res.err e := rfl
@[simp] theorem bind_panic (f : α → Res β) : ((Res.panic : Res α) >>= f) = Res.panic := rfl
@[simp] theorem bind_loop (f : α → Res β) : ((Res.loop : Res α) >>= f) = Res.loop := rfl
@[simp] theorem pure_eq (a : α) : (pure a : Res α) = Res.ok a := rfl

theorem bind_eq_ok {x : Res α} {f : α → Res β} {b : β} :
    (x >>= f) = .ok b ↔ ∃ a, x = .ok a ∧ f a = .ok b := by
  cases x <;> simp

theorem bind_eq_panic {x : Res α} {f : α → Res β} :
    (x >>= f) = .panic ↔ x = .panic ∨ ∃ a, x = .ok a ∧ f a = .panic := by
  cases x <;> simp

theorem bind_eq_loop {x : Res α} {f : α → Res β} :
    (x >>= f) = .loop ↔ x = .loop ∨ ∃ a, x = .ok a ∧ f a = .loop := by
  cases x <;> simp

theorem bind_eq_err {x : Res α} {f : α → Res β} {e : Err} :
    (x >>= f) = .err e ↔ x = .err e ∨ ∃ a, x = .ok a ∧ f a = .err e := by
  cases x <;> simp

end Res

/-- Go `byte(n)` for an integer expression: truncation to 8 bits. -/
def byteN (n : Nat) : UInt8 := UInt8.ofNat n

/-- Go `byte(n)` for a signed integer expression: truncation to 8 bits (two's complement). -/
def byteI (n : Int) : UInt8 := UInt8.ofInt n

@[simp] theorem byteN_toNat (n : Nat) : (byteN n).toNat = n % 256 := by
  simp [byteN]

@[simp] theorem byteI_toNat (n : Int) : ((byteI n).toNat : Int) = n % 256 := by
  simp [byteI, UInt8.ofInt]
  omega

/-- `(uint16(b0)<<8)|uint16(b1)`. -/
def be16 (b0 b1 : UInt8) : Nat := (b0.toNat <<< 8) ||| b1.toNat
/-- `(uint32(b0)<<24)|(uint32(b1)<<16)|(uint32(b2)<<8)|uint32(b3)`. -/
def be32 (b0 b1 b2 b3 : UInt8) : Nat :=
  (b0.toNat <<< 24) ||| (b1.toNat <<< 16) ||| (b2.toNat <<< 8) ||| b3.toNat
/-- Big-endian 64-bit read. -/
def be64 (b0 b1 b2 b3 b4 b5 b6 b7 : UInt8) : Nat :=
  (b0.toNat <<< 56) ||| (b1.toNat <<< 48) ||| (b2.toNat <<< 40) ||| (b3.toNat <<< 32) |||
  (b4.toNat <<< 24) ||| (b5.toNat <<< 16) ||| (b6.toNat <<< 8) ||| b7.toNat

theorem be16_eq (b0 b1 : UInt8) : be16 b0 b1 = b0.toNat * 256 + b1.toNat := by
  have := b1.toNat_lt
  unfold be16
  rw [← Nat.shiftLeft_add_eq_or_of_lt (by omega), Nat.shiftLeft_eq]

private theorem or_step (a c : Nat) (k : Nat) (h : c < 2 ^ k) : (a <<< k) ||| c = a * 2 ^ k + c := by
  rw [← Nat.shiftLeft_add_eq_or_of_lt h, Nat.shiftLeft_eq]

theorem be32_eq (b0 b1 b2 b3 : UInt8) :
    be32 b0 b1 b2 b3 = b0.toNat * 16777216 + b1.toNat * 65536 + b2.toNat * 256 + b3.toNat := by
  have h1 := b1.toNat_lt; have h2 := b2.toNat_lt; have h3 := b3.toNat_lt
  unfold be32
  rw [Nat.or_assoc, Nat.or_assoc, or_step _ _ 8 (by omega), or_step _ _ 16 (by omega),
    or_step _ _ 24 (by omega)]
  omega

theorem be64_eq (b0 b1 b2 b3 b4 b5 b6 b7 : UInt8) :
    be64 b0 b1 b2 b3 b4 b5 b6 b7 =
      b0.toNat * 2 ^ 56 + b1.toNat * 2 ^ 48 + b2.toNat * 2 ^ 40 + b3.toNat * 2 ^ 32 +
      b4.toNat * 2 ^ 24 + b5.toNat * 2 ^ 16 + b6.toNat * 2 ^ 8 + b7.toNat := by
  have h1 := b1.toNat_lt; have h2 := b2.toNat_lt; have h3 := b3.toNat_lt
  have h4 := b4.toNat_lt; have h5 := b5.toNat_lt; have h6 := b6.toNat_lt; have h7 := b7.toNat_lt
  unfold be64
  rw [Nat.or_assoc, Nat.or_assoc, Nat.or_assoc, Nat.or_assoc, Nat.or_assoc, Nat.or_assoc,
    or_step _ _ 8 (by omega), or_step _ _ 16 (by omega),
    or_step _ _ 24 (by omega), or_step _ _ 32 (by omega), or_step _ _ 40 (by omega),
    or_step _ _ 48 (by omega), or_step _ _ 56 (by omega)]
  omega

theorem be16_lt (b0 b1 : UInt8) : be16 b0 b1 < 65536 := by
  have := b0.toNat_lt; have := b1.toNat_lt; rw [be16_eq]; omega
theorem be32_lt (b0 b1 b2 b3 : UInt8) : be32 b0 b1 b2 b3 < 4294967296 := by
  have := b0.toNat_lt; have := b1.toNat_lt; have := b2.toNat_lt; have := b3.toNat_lt
  rw [be32_eq]; omega
theorem be64_lt (b0 b1 b2 b3 b4 b5 b6 b7 : UInt8) : be64 b0 b1 b2 b3 b4 b5 b6 b7 < 2 ^ 64 := by
  have := b0.toNat_lt; have h1 := b1.toNat_lt; have h2 := b2.toNat_lt; have h3 := b3.toNat_lt
  have h4 := b4.toNat_lt; have h5 := b5.toNat_lt; have h6 := b6.toNat_lt; have h7 := b7.toNat_lt
  rw [be64_eq]; omega

/-- Decimal digits of a natural number, most significant first (`strconv.Itoa`/`AppendInt` for n ≥ 0).
`fuel` bounds the number of digits; `n + 1` always suffices. -/
def digitsAux : Nat → Nat → Bytes
  | 0, _ => []
  | fuel + 1, n => if n < 10 then [byteN (48 + n)] else digitsAux fuel (n / 10) ++ [byteN (48 + n % 10)]

/-- `strconv.Itoa(n)` for `n ≥ 0`. -/
def decNat (n : Nat) : Bytes := digitsAux (n + 1) n

/-- `strconv.AppendInt(_, n, 10)`. -/
def decInt (n : Int) : Bytes := if n < 0 then 45 :: decNat n.natAbs else decNat n.natAbs

end Dxs
