import Verif.Val

/-!
# JSON specification (independent of the model)

Transcribed from RFC 8259, slightly widened (see `StrBody`, `NumLike`), so that theorems "for every text of
this grammar" cover every JSON text of the RFC whose object keys contain no double quote.
-/

namespace Dxs.Json

/-- The data a JSON text describes. Strings and keys are kept as the text between the quotes, numbers as
their text. -/
inductive JData where
  | null | tru | fls
  | str (text : Bytes)
  | num (text : Bytes)
  | arr (xs : List JData)
  | obj (kvs : List (Bytes × JData))

namespace Spec

/-- RFC 8259 section 2: space, tab, line feed, carriage return. -/
def Ws (b : Bytes) : Prop := ∀ c ∈ b, c = 0x20 ∨ c = 0x09 ∨ c = 0x0A ∨ c = 0x0D

/-- The text between the quotes of a string: any bytes, where a quote occurs only behind a backslash and a
backslash takes the next byte with it. (RFC 8259 section 7 allows fewer bytes and fewer escapes.) -/
inductive StrBody : Bytes → Prop
  | nil : StrBody []
  | char (c : UInt8) (r : Bytes) : c ≠ 34 → c ≠ 92 → StrBody r → StrBody (c :: r)
  | esc (c : UInt8) (r : Bytes) : StrBody r → StrBody (92 :: c :: r)

/-- Number of backslashes at the end of `b`. -/
def tb (b : Bytes) : Nat := (b.reverse.takeWhile (· == 92)).length

/-- Bytes that occur in numbers: digits, `.`, `-`, `+`, `e`, `E`. -/
def NumByte (c : UInt8) : Prop :=
  (48 ≤ c ∧ c ≤ 57) ∨ c = 46 ∨ c = 45 ∨ c = 43 ∨ c = 101 ∨ c = 69

/-- Every text made of number bytes, other than the empty text and a lone sign. -/
def NumLike (t : Bytes) : Prop := t ≠ [] ∧ (∀ c ∈ t, NumByte c) ∧ t ≠ [45] ∧ t ≠ [43]

/-- A non-empty run of digits. -/
def Digits (t : Bytes) : Prop := t ≠ [] ∧ ∀ c ∈ t, (48 : UInt8) ≤ c ∧ c ≤ 57

/-- RFC 8259 section 6: `number = [ minus ] int [ frac ] [ exp ]`. -/
def RfcNumber (t : Bytes) : Prop :=
  ∃ sign int frac exp : Bytes, t = sign ++ int ++ frac ++ exp ∧
    (sign = [] ∨ sign = [45]) ∧
    (Digits int ∧ (int.head? = some 48 → int = [48])) ∧
    (frac = [] ∨ ∃ d, Digits d ∧ frac = 46 :: d) ∧
    (exp = [] ∨ ∃ e s d, (e = 101 ∨ e = 69) ∧ (s = [] ∨ s = [45] ∨ s = [43]) ∧ Digits d ∧ exp = e :: s ++ d)

mutual
/-- `bs` is a text of the value, without surrounding whitespace. -/
def Text : JData → Bytes → Prop
  | .null, bs => bs = [110, 117, 108, 108]
  | .tru, bs => bs = [116, 114, 117, 101]
  | .fls, bs => bs = [102, 97, 108, 115, 101]
  | .str s, bs => StrBody s ∧ bs = 34 :: s ++ [34]
  | .num t, bs => NumLike t ∧ bs = t
  | .arr xs, bs => (xs = [] ∧ ∃ w, Ws w ∧ bs = 91 :: w ++ [93]) ∨ ∃ t, TextL xs t ∧ bs = 91 :: t
  | .obj kvs, bs => (kvs = [] ∧ ∃ w, Ws w ∧ bs = 123 :: w ++ [125]) ∨ ∃ t, TextM kvs t ∧ bs = 123 :: t
/-- One or more elements separated by commas, up to and including the closing bracket. -/
def TextL : List JData → Bytes → Prop
  | [], _ => False
  | x :: xs, bs => ∃ w1 t w2, Ws w1 ∧ Ws w2 ∧ Text x t ∧
      ((xs = [] ∧ bs = w1 ++ (t ++ (w2 ++ [93]))) ∨ ∃ r, TextL xs r ∧ bs = w1 ++ (t ++ (w2 ++ 44 :: r)))
/-- One or more members separated by commas, up to and including the closing brace. A key contains no
double quote. -/
def TextM : List (Bytes × JData) → Bytes → Prop
  | [], _ => False
  | (k, x) :: kvs, bs => ∃ w1 w2 w3 t w4, Ws w1 ∧ Ws w2 ∧ Ws w3 ∧ Ws w4 ∧ Text x t ∧ 34 ∉ k ∧
      ((kvs = [] ∧ bs = w1 ++ 34 :: (k ++ 34 :: (w2 ++ 58 :: (w3 ++ (t ++ (w4 ++ [125])))))) ∨
       ∃ r, TextM kvs r ∧ bs = w1 ++ 34 :: (k ++ 34 :: (w2 ++ 58 :: (w3 ++ (t ++ (w4 ++ 44 :: r))))))
end

mutual
/-- The value a description stands for: strings are raw text (times if `ParserJsonTime` recognises one);
a number with a decimal point is a float32, any other number what `StrToIntDef(_, 0)` makes of it (for the
decimal representation of an int64 that is this int64: see `IntLaw`). Members stay in order, with raw
keys. -/
def denote (E : Env) : JData → Val
  | .null => .null
  | .tru => .tru
  | .fls => .fls
  | .str s => match E.jsonTime s with
    | some d => .dateTime d
    | none => .raw s
  | .num t => if 46 ∈ t then .ofF32 (E.f64to32 ((E.strToFloat t).getD 0)) else .int 0 ((E.strToInt t).getD 0)
  | .arr xs => .arr (denoteL E xs)
  | .obj kvs => .obj Bool.false (denoteM E kvs)
def denoteL (E : Env) : List JData → List Val
  | [] => []
  | x :: xs => denote E x :: denoteL E xs
def denoteM (E : Env) : List (Bytes × JData) → List (Bytes × Val)
  | [] => []
  | (k, x) :: kvs => (k, denote E x) :: denoteM E kvs
end

/-- `StrToIntDef` reads the decimal representation of an int64. -/
def IntLaw (E : Env) : Prop := ∀ c : BitVec 64, E.strToInt (decInt c.toInt) = some c

end Spec
end Dxs.Json
