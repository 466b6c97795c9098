import Verif.Json.Encode

/-!
# Round trip: what the decoder makes of what the encoder wrote
-/

namespace Dxs.Json

open Spec

namespace Spec

/-- What escaping and unescaping of strings (DxCommonLib) must satisfy: an escaped string contains no
unescaped quote and unescapes to the original; escaping invents no quote. -/
structure EscLaw (E : Env) : Prop where
  body : ∀ a s, StrBody (E.esc a s)
  inv : ∀ a s, E.unesc (E.esc a s) = s
  noQuote : ∀ a s, 34 ∉ s → 34 ∉ E.esc a s

/-- The name of a member: raw keys are unescaped on lookup. -/
def keyName (E : Env) (ku : Bool) (k : Bytes) : Bytes := if ku then k else E.unesc k

mutual
/-- `Reads v r`: `r` has the shape, keys, integers, booleans and nulls of `v`, and its strings read
(`String()`, i.e. raw strings unescaped) as those of `v`. A float reads back as some number, a time as a time
or a string, a missing array element as null. -/
def Reads (E : Env) : Val → Val → Prop
  | .nil, r => r = .null
  | .obj ku kvs, r => ∃ ku' kvs', r = .obj ku' kvs' ∧ ReadsM E ku ku' kvs kvs'
  | .arr xs, r => ∃ ys, r = .arr ys ∧ ReadsL E xs ys
  | .str s, r => ∃ s', r = .raw s' ∧ E.unesc s' = s
  | .raw s, r => ∃ s', r = .raw s' ∧ E.unesc s' = E.unesc s
  | .int _ c, r => ∃ e, r = .int e c
  | .float _, r => (∃ c, r = .float c) ∨ ∃ e c, r = .int e c
  | .double _, r => (∃ c, r = .float c) ∨ ∃ e c, r = .int e c
  | .dateTime _, r => (∃ c, r = .dateTime c) ∨ ∃ s, r = .raw s
  | .null, r => r = .null
  | .tru, r => r = .tru
  | .fls, r => r = .fls
  | .bin _ _, _ => False
  | .exbin _ _, _ => False
  | .nan, _ => False
  | .inf, _ => False
def ReadsL (E : Env) : List Val → List Val → Prop
  | [], ys => ys = []
  | x :: xs, ys => ∃ y ys', ys = y :: ys' ∧ Reads E x y ∧ ReadsL E xs ys'
def ReadsM (E : Env) (ku ku' : Bool) : List (Bytes × Val) → List (Bytes × Val) → Prop
  | [], ys => ys = []
  | (k, x) :: xs, ys => ∃ k' y ys', ys = (k', y) :: ys' ∧ keyName E ku' k' = keyName E ku k ∧
      Reads E x y ∧ ReadsM E ku ku' xs ys'
end

mutual
/-- The values covered: no binaries, NAN, INF, nil members; keys without a double quote; raw strings are
well-formed string bodies; no string looks like a JSON time; floats print as numbers; printed times contain
no unescaped quote. -/
def Plain (E : Env) (a escDT : Bool) : Val → Prop
  | .nil => False
  | .obj _ kvs => PlainM E a escDT kvs
  | .arr xs => PlainL E a escDT xs
  | .str s => E.jsonTime (E.esc a s) = none
  | .raw s => StrBody s ∧ E.jsonTime s = none
  | .float c => NumLike (E.fmtFloat (E.f32to64 (lo32 c)))
  | .double c => NumLike (E.fmtFloat c)
  | .dateTime c => StrBody (timeBody E escDT c)
  | .int _ _ => True
  | .null => True
  | .tru => True
  | .fls => True
  | .bin _ _ => False
  | .exbin _ _ => False
  | .nan => False
  | .inf => False
def PlainL (E : Env) (a escDT : Bool) : List Val → Prop
  | [] => True
  | v :: vs => (v = .nil ∨ Plain E a escDT v) ∧ PlainL E a escDT vs
def PlainM (E : Env) (a escDT : Bool) : List (Bytes × Val) → Prop
  | [] => True
  | (k, v) :: kvs => 34 ∉ k ∧ Plain E a escDT v ∧ PlainM E a escDT kvs
end

end Spec

/-- The escaping styles other than `JSE_NoEscape`. -/
def styleOf (a : Bool) : Style := if a then .allEscape else .onlyAnsi

variable (E : Env)

theorem keyText_styleOf (a ku : Bool) (k : Bytes) :
    keyText E (styleOf a) ku k = if ku then E.esc a k else k := by
  cases a <;> rfl

theorem strText_styleOf (a : Bool) (s : Bytes) : strText E (styleOf a) s = E.esc a s := by
  cases a <;> rfl

mutual
theorem plain_enc (L : EscLaw E) (a escDT : Bool) : ∀ v, Plain E a escDT v → Enc E (styleOf a) escDT v
  | .nil, h => by rw [Plain] at h; exact h.elim
  | .obj ku kvs, h => by rw [Plain] at h; rw [Enc]; exact plain_encM L a escDT ku kvs h
  | .arr xs, h => by rw [Plain] at h; rw [Enc]; exact plain_encL L a escDT xs h
  | .str s, _ => by rw [Enc, strText_styleOf]; exact L.body a s
  | .raw s, h => by rw [Plain] at h; rw [Enc]; exact h.1
  | .float _, h => by rw [Plain] at h; rw [Enc]; exact h
  | .double _, h => by rw [Plain] at h; rw [Enc]; exact h
  | .dateTime _, h => by rw [Plain] at h; rw [Enc]; exact h
  | .int _ _, _ => by rw [Enc]; trivial
  | .null, _ => by rw [Enc]; trivial
  | .tru, _ => by rw [Enc]; trivial
  | .fls, _ => by rw [Enc]; trivial
  | .bin _ _, h => by rw [Plain] at h; exact h.elim
  | .exbin _ _, h => by rw [Plain] at h; exact h.elim
  | .nan, h => by rw [Plain] at h; exact h.elim
  | .inf, h => by rw [Plain] at h; exact h.elim
theorem plain_encL (L : EscLaw E) (a escDT : Bool) : ∀ vs, PlainL E a escDT vs → EncL E (styleOf a) escDT vs
  | [], _ => by rw [EncL]; trivial
  | v :: vs, h => by
    rw [PlainL] at h
    rw [EncL]
    exact ⟨h.1.imp id (plain_enc L a escDT v), plain_encL L a escDT vs h.2⟩
theorem plain_encM (L : EscLaw E) (a escDT ku : Bool) :
    ∀ kvs, PlainM E a escDT kvs → EncM E (styleOf a) escDT ku kvs
  | [], _ => by rw [EncM]; trivial
  | (k, v) :: kvs, h => by
    rw [PlainM] at h
    rw [EncM, keyText_styleOf]
    refine ⟨?_, plain_enc L a escDT v h.2.1, plain_encM L a escDT ku kvs h.2.2⟩
    split
    · exact L.noQuote a k h.1
    · exact h.1
end

theorem denote_num (t : Bytes) :
    (∃ c, denote E (.num t) = .float c) ∨ ∃ e c, denote E (.num t) = .int e c := by
  rw [denote]
  split
  · exact .inl ⟨_, rfl⟩
  · exact .inr ⟨_, _, rfl⟩

mutual
theorem plain_reads (L : EscLaw E) (I : IntLaw E) (a escDT : Bool) :
    ∀ v, v = .nil ∨ Plain E a escDT v → Reads E v (denote E (data E (styleOf a) escDT v))
  | .nil, _ => by rw [Reads, data, denote]
  | .obj ku kvs, h => by
    rcases h with h | h
    · cases h
    · rw [Plain] at h
      rw [Reads, data, denote]
      exact ⟨false, _, rfl, plain_readsM L I a escDT ku kvs h⟩
  | .arr xs, h => by
    rcases h with h | h
    · cases h
    · rw [Plain] at h
      rw [Reads, data, denote]
      exact ⟨_, rfl, plain_readsL L I a escDT xs h⟩
  | .str s, h => by
    rcases h with h | h
    · cases h
    · rw [Plain] at h
      rw [Reads, data, denote, strText_styleOf, h]
      exact ⟨_, rfl, L.inv a s⟩
  | .raw s, h => by
    rcases h with h | h
    · cases h
    · rw [Plain] at h
      rw [Reads, data, denote, h.2]
      exact ⟨_, rfl, rfl⟩
  | .float _, _ => by rw [Reads, data]; exact denote_num E _
  | .double _, _ => by rw [Reads, data]; exact denote_num E _
  | .dateTime _, _ => by
    rw [Reads, data, denote]
    split
    · exact .inl ⟨_, rfl⟩
    · exact .inr ⟨_, rfl⟩
  | .int _ c, _ => by
    rw [Reads, data, denote, if_neg (decInt_no_dot _), I c]
    exact ⟨0, rfl⟩
  | .null, _ => by rw [Reads, data, denote]
  | .tru, _ => by rw [Reads, data, denote]
  | .fls, _ => by rw [Reads, data, denote]
  | .bin _ _, h => by
    rcases h with h | h
    · cases h
    · rw [Plain] at h; exact h.elim
  | .exbin _ _, h => by
    rcases h with h | h
    · cases h
    · rw [Plain] at h; exact h.elim
  | .nan, h => by
    rcases h with h | h
    · cases h
    · rw [Plain] at h; exact h.elim
  | .inf, h => by
    rcases h with h | h
    · cases h
    · rw [Plain] at h; exact h.elim
theorem plain_readsL (L : EscLaw E) (I : IntLaw E) (a escDT : Bool) :
    ∀ vs, PlainL E a escDT vs → ReadsL E vs (denoteL E (dataL E (styleOf a) escDT vs))
  | [], _ => by rw [ReadsL, dataL, denoteL]
  | v :: vs, h => by
    rw [PlainL] at h
    rw [ReadsL, dataL, denoteL]
    exact ⟨_, _, rfl, plain_reads L I a escDT v h.1, plain_readsL L I a escDT vs h.2⟩
theorem plain_readsM (L : EscLaw E) (I : IntLaw E) (a escDT ku : Bool) :
    ∀ kvs, PlainM E a escDT kvs → ReadsM E ku false kvs (denoteM E (dataM E (styleOf a) escDT ku kvs))
  | [], _ => by rw [ReadsM, dataM, denoteM]
  | (k, v) :: kvs, h => by
    rw [PlainM] at h
    rw [ReadsM, dataM, denoteM]
    refine ⟨_, _, _, rfl, ?_, plain_reads L I a escDT v (.inr h.2.1), plain_readsM L I a escDT ku kvs h.2.2⟩
    rw [keyText_styleOf]
    cases ku
    · rfl
    · simp [keyName, L.inv]
end

end Dxs.Json
