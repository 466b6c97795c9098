import Verif.MsgPack.Roundtrip
import Verif.EnvEx

/-!
# Properties C01–C09, C61, C63, C65, C67 (MessagePack)

`Spec.Enc d bs` (file MsgPack/Spec.lean) is the wire format of the MessagePack specification,
`parse`/`newValueFromMsgPack`/`enc` (file MsgPack/Model.lean) are the code.
-/

namespace Dxs.MsgPack
open Spec

/-! ## C01 -/

/-- **C01.** For every data item, every serialisation of it that the specification allows, and all trailing
bytes: decoding succeeds, yields the described value, and leaves exactly the trailing bytes. -/
theorem C01_decode_spec (E : Env) (d : MData) (bs rest : Bytes) (h : Enc d bs) (hf : Fits d) :
    ∃ v, Denotes E d v ∧ parse E (bs ++ rest) = .ok (v, rest) := by
  unfold parse
  exact dec_ok E d bs rest _ h hf (by simp)

/-- **C01**, as seen through `NewValueFromMsgPack`. -/
theorem C01_newValueFromMsgPack (E : Env) (d : MData) (bs rest : Bytes) (h : Enc d bs) (hf : Fits d) :
    ∃ v, Denotes E d v ∧ newValueFromMsgPack E (bs ++ rest) = .ok v := by
  obtain ⟨v, hv, e⟩ := C01_decode_spec E d bs rest h hf
  exact ⟨v, hv, by simp [newValueFromMsgPack, e]⟩

/-- Non-vacuity: `{"a": [1 (as uint16), -1], "b": {}}`, with non-minimal formats, satisfies the hypotheses. -/
example : ∃ bs, Enc (.map [([97], .arr [.int 1, .int (-1)]), ([98], .map [])]) bs ∧
    Fits (.map [([97], .arr [.int 1, .int (-1)]), ([98], .map [])]) ∧ bs.length = 16 := by
  refine ⟨0xde :: 0 :: 2 :: 0xd9 :: 1 :: 97 :: 0xdc :: 0 :: 2 :: 0xcd :: 0 :: 1 :: 0xff :: 0xa1 :: 98 :: 0x80 :: [],
    ?_, ?_, rfl⟩
  · refine ⟨[0xde, 0, 2], _, Or.inr (Or.inl ⟨by decide, rfl⟩), ?_, rfl⟩
    refine ⟨[0xd9, 1], [0xdc, 0, 2, 0xcd, 0, 1, 0xff], [0xa1, 98, 0x80], Or.inr (Or.inl ⟨by decide, rfl⟩), ?_, ?_, rfl⟩
    · refine ⟨[0xdc, 0, 2], _, Or.inr (Or.inl ⟨by decide, rfl⟩), ?_, rfl⟩
      refine ⟨[0xcd, 0, 1], [0xff], ?_, ?_, rfl⟩
      · right; right; right; left; exact ⟨by decide, by decide, rfl⟩
      · refine ⟨[0xff], [], ?_, rfl, rfl⟩
        right; left; exact ⟨by decide, by decide, rfl⟩
    · refine ⟨[0xa1], [0x80], [], Or.inl ⟨by decide, rfl⟩, ?_, rfl, rfl⟩
      exact ⟨[0x80], [], Or.inl ⟨by decide, rfl⟩, rfl, rfl⟩
  · simp only [Fits, FitsM, FitsL]
    decide

/-! ## C02 -/

/-- **C02.** What `Value2MsgPack` appends is a serialisation, allowed by the specification, of the item the
value stands for. -/
theorem C02_encode_spec (E : Env) (v : Val) (dst : Bytes) (h : Supported v) :
    ∃ bs, enc E v dst = dst ++ bs ∧ Enc (data E v) bs :=
  ⟨enc E v [], enc_app E v dst, enc_sound E v h⟩

/-- Non-vacuity: a supported value with nested containers, an extension and a time. -/
example : Supported (.obj true [([97], .arr [.int 0 5, .exbin 0 [7, 1, 2, 3], .dateTime 12345]), ([], .nil)]) := by
  refine ⟨by decide, by decide, ⟨by decide, trivial, ⟨7, [1, 2, 3], rfl, by decide, by decide, by decide⟩,
    trivial, trivial⟩, by decide, trivial, trivial⟩

/-! ## C03 -/

/-- **C03.** Decoding an encoded value gives back the same value and consumes exactly the encoding. -/
theorem C03_roundtrip (E : Env) (v : Val) (rest : Bytes) (h : Supported v) (hk : DistinctKeys E v) :
    ∃ w, Same E v w ∧ parse E (value2MsgPack E v ++ rest) = .ok (w, rest) := by
  obtain ⟨w, hd, e⟩ := C01_decode_spec E (data E v) (value2MsgPack E v) rest
    (enc_sound E v h) (fits_data E v)
  exact ⟨w, same_of_denotes E v w h hk hd, e⟩

/-- Non-vacuity of the two hypotheses together. -/
example : Supported (.obj true [([97], .raw [1]), ([98], .arr [.int 0 5, .fls])]) ∧
    DistinctKeys envEx (.obj true [([97], .raw [1]), ([98], .arr [.int 0 5, .fls])]) := by
  refine ⟨⟨by decide, by decide, by simp [Supported], by decide, ⟨by decide, trivial, trivial, trivial⟩, trivial⟩, ?_⟩
  refine ⟨?_, trivial, ⟨trivial, trivial, trivial⟩, trivial⟩
  decide

/-! ## C04 -/

/-- **C04.** Every int64 is written in a format from which it is read back, and no other MessagePack integer
format for the same number is shorter. -/
theorem C04_int64 (E : Env) (ext : UInt8) (c : BitVec 64) (rest : Bytes) :
    parse E (value2MsgPack E (.int ext c) ++ rest) = .ok (.int 0 c, rest) ∧
    IntFmt c.toInt (value2MsgPack E (.int ext c)) ∧
    ∀ bs, IntFmt c.toInt bs → (value2MsgPack E (.int ext c)).length ≤ bs.length := by
  have hr : -2 ^ 63 ≤ c.toInt ∧ c.toInt < 2 ^ 63 := by
    have h1 := BitVec.le_toInt c; have h2 := BitVec.toInt_lt (x := c); simp at h1 h2; omega
  refine ⟨?_, ?_, ?_⟩
  · obtain ⟨w, hw, e⟩ := C03_roundtrip E (.int ext c) rest trivial trivial
    have hw : w = _ := hw
    rw [e, hw]
  · exact writeInt_fmt _ hr.1 hr.2
  · intro bs h
    simp only [value2MsgPack, enc]
    have hl : bs ≠ [] → 1 ≤ bs.length := fun hne => List.length_pos_iff.mpr hne
    unfold writeInt
    rcases h with ⟨a, b, rfl⟩ | ⟨a, b, rfl⟩ | ⟨a, b, rfl⟩ | ⟨a, b, rfl⟩ | ⟨a, b, rfl⟩ | ⟨a, b, rfl⟩ |
      ⟨a, b, rfl⟩ | ⟨a, b, rfl⟩ | ⟨a, b, rfl⟩ | ⟨a, b, rfl⟩ <;>
    (repeat' split) <;> simp [be, beI, put16, put32, put64] <;> omega

/-! ## C05 (MessagePack part) -/

/-- **C05** for `Value2MsgPack`. -/
theorem C05_msgpack_appends (E : Env) (v : Val) (dst : Bytes) :
    enc E v dst = dst ++ enc E v [] := enc_app E v dst

/-! ## C06 -/

/-- **C06 is false**: `81` (a map of one pair, nothing following) makes the decoder index past the end. -/
theorem C06_counterexample_map (E : Env) : newValueFromMsgPack E [0x81] = .panic := by
  simp [newValueFromMsgPack, parse, parseValue, readCode, isStr, isArray, isMap, parseObject, parseMapLen]

/-- **C06 is false**: `d4 00` (fixext 1 whose payload is missing) slices past the end. -/
theorem C06_counterexample_ext (E : Env) : newValueFromMsgPack E [0xd4, 0x00] = .panic := by
  simp [newValueFromMsgPack, parse, parseValue, readCode, isStr, isArray, isMap, isFixedNum, isBin, isExt,
    parseExt, parseExtLen, sliceFrom]

/-- **C06**, what holds instead: the decoder panics only if the input *ends* in one of three truncated
items (see `BadEnd`); on every other input it returns a value or an error.
Missing for the full property: the three missing length checks in the code. -/
theorem C06_no_panic_partial (E : Env) (b : Bytes)
    (h : ∀ s, s <:+ b → ¬ BadEnd s) : newValueFromMsgPack E b ≠ .panic := by
  have g := good_value E (b.length + 1) b (by omega)
  unfold newValueFromMsgPack parse
  intro hp
  rw [Res.bind_eq_panic] at hp
  rcases hp with hp | ⟨x, _, hx⟩
  · rw [hp] at g
    obtain ⟨s, h1, h2⟩ := g
    exact h s h1 h2
  · cases hx

/-- Non-vacuity: the three-byte (invalid) input `c1 01 02` has no bad end. -/
example : ∀ s, s <:+ [0xc1, 0x01, 0x02] → ¬ BadEnd s := by
  intro s hs hb
  have hmem : s = [0xc1, 0x01, 0x02] ∨ s = [0x01, 0x02] ∨ s = [0x02] ∨ s = [] := by
    rcases List.suffix_cons_iff.mp hs with h | h
    · exact Or.inl h
    rcases List.suffix_cons_iff.mp h with h | h
    · exact Or.inr (Or.inl h)
    rcases List.suffix_cons_iff.mp h with h | h
    · exact Or.inr (Or.inr (Or.inl h))
    · exact Or.inr (Or.inr (Or.inr (List.suffix_nil.mp h)))
  rcases hb with ⟨n, hn, hm⟩ | ⟨n, h, p, hm, he, _⟩ | ⟨n, p, he, _⟩
  · rcases hm with ⟨h1, h2⟩ | ⟨h1, h2⟩ | ⟨h1, h2⟩ <;> rcases hmem with rfl | rfl | rfl | rfl <;> simp [be] at h2
    have := congrArg UInt8.toNat h2
    simp at this; omega
  · rcases hm with ⟨h1, rfl⟩ | ⟨h1, rfl⟩ | ⟨h1, rfl⟩ | ⟨h1, rfl⟩ | ⟨h1, rfl⟩ | ⟨h1, rfl⟩ | ⟨h1, rfl⟩ | ⟨h1, rfl⟩ <;>
      rcases hmem with rfl | rfl | rfl | rfl <;> simp [be] at he
  · rcases hmem with rfl | rfl | rfl | rfl <;> simp at he

/-! ## C07 -/

/-- **C07.** Decoding terminates (no fuel larger than the input is ever exhausted), and a successful decode
leaves a proper suffix of its input. -/
theorem C07_prefix_and_termination (E : Env) (b : Bytes) :
    parse E b ≠ .loop ∧
    ∀ v t, parse E b = .ok (v, t) → ∃ p, p ≠ [] ∧ b = p ++ t := by
  have g := good_value E (b.length + 1) b (by omega)
  refine ⟨?_, ?_⟩
  · intro h
    unfold parse at h
    rw [h] at g; exact g
  · intro v t h
    unfold parse at h
    have hl := consumes E _ b t v (by omega) h
    rw [h] at g
    obtain ⟨p, hp⟩ := (g : t <:+ b)
    refine ⟨p, ?_, hp.symm⟩
    rintro rfl
    simp at hp; subst hp; omega

/-- The fuel is irrelevant: any two fuels larger than the input give a result that is not `loop`. -/
theorem C07_any_fuel (E : Env) (b : Bytes) (f : Nat) (h : b.length < f) : parseValue E f b ≠ .loop := by
  intro hl
  have g := good_value E f b h
  rw [hl] at g; exact g

/-! ## C08 -/

/-- **C08.** No proper prefix of *any* serialisation allowed by the specification decodes successfully. -/
theorem C08_truncation_spec (E : Env) (d : MData) (bs p x : Bytes) (h : Enc d bs) (hf : Fits d)
    (he : bs = p ++ x) (hx : x ≠ []) : ∀ v, newValueFromMsgPack E p ≠ .ok v := by
  intro v hv
  unfold newValueFromMsgPack parse at hv
  rw [Res.bind_eq_ok] at hv
  obtain ⟨a, h1, _⟩ := hv
  exact trunc E d bs p x p.length h hf he.symm hx (by omega) a h1

/-- **C08**, for what `Value2MsgPack` produces. -/
theorem C08_truncation (E : Env) (v : Val) (p x : Bytes) (h : Supported v)
    (he : value2MsgPack E v = p ++ x) (hx : x ≠ []) : ∀ w, newValueFromMsgPack E p ≠ .ok w :=
  C08_truncation_spec E (data E v) _ p x (enc_sound E v h) (fits_data E v) he hx

/-- Non-vacuity: the encoding of `{"a": 5}` has a proper prefix of three bytes. -/
example : value2MsgPack envEx (.obj true [([97], .int 0 5)]) = [0x81, 0xa1, 97] ++ [5] := by decide

/-! ## C09 -/

/-- **C09 is false** for payload lengths 1, 2, 4, 8, 16: the extension of type 5 with the one-byte payload 9
is written as `d4 c7 01 05 09`, which decodes to the extension of type 0xc7 with payload 01. -/
theorem C09_counterexample :
    value2MsgPack envEx (.exbin 0 [5, 9]) = [0xd4, 0xc7, 0x01, 0x05, 0x09] ∧
    newValueFromMsgPack envEx (value2MsgPack envEx (.exbin 0 [5, 9])) = .ok (.exbin 0 [0xc7, 0x01]) := by
  decide

/-- **C09**, for all other payload lengths below 2^32 and all types but the timestamp type.
Missing for the full property: the lengths 1, 2, 4, 8, 16, for which it is false. -/
theorem C09_ext_roundtrip_partial (E : Env) (e ty : UInt8) (p rest : Bytes) (hty : ty ≠ 0xff)
    (hl : p.length < 2 ^ 32) (hf : p.length ≠ 1 ∧ p.length ≠ 2 ∧ p.length ≠ 4 ∧ p.length ≠ 8 ∧ p.length ≠ 16) :
    parse E (value2MsgPack E (.exbin e (ty :: p)) ++ rest) = .ok (.exbin 0 (ty :: p), rest) := by
  obtain ⟨w, hw, he⟩ := C03_roundtrip E (.exbin e (ty :: p)) rest
    ⟨ty, p, rfl, hty, hl, by simp [fixextLen, hf]⟩ trivial
  have hw : w = _ := hw
  rw [he, hw]

/-- **C09**, the failing lengths: for every payload of length 1, 2, 4, 8 or 16 (and every type) the bytes
written are *not* a serialisation of that extension. -/
theorem C09_fixext_wrong (E : Env) (e ty : UInt8) (p : Bytes)
    (hf : p.length = 1 ∨ p.length = 2 ∨ p.length = 4 ∨ p.length = 8 ∨ p.length = 16) :
    ¬ Enc (.ext ty p) (value2MsgPack E (.exbin e (ty :: p))) := by
  rintro ⟨h, hh, _, he⟩
  simp only [value2MsgPack, enc, List.length_cons, Nat.add_sub_cancel] at he
  rcases hf with hl | hl | hl | hl | hl <;> rw [hl] at hh he <;>
    simp [writeExtCode] at he <;>
    rcases hh with ⟨h1, rfl⟩ | ⟨h1, rfl⟩ | ⟨h1, rfl⟩ | ⟨h1, rfl⟩ | ⟨h1, rfl⟩ | ⟨h1, rfl⟩ | ⟨h1, rfl⟩ | ⟨h1, rfl⟩ <;>
    first
      | (simp at h1; done)
      | (simp [be] at he; done)
      | (have := congrArg List.length he; simp at this; omega)

/-! ## C61 (MessagePack part) -/

/-- **C61 is false**: exactly the NAN and INF values are written as nothing. -/
theorem C61_msgpack_dropped (E : Env) (v : Val) : value2MsgPack E v = [] ↔ v = .nan ∨ v = .inf := by
  constructor
  · intro h
    unfold value2MsgPack at h
    cases v with
    | nan => exact .inl rfl
    | inf => exact .inr rfl
    | obj ku kvs =>
      rw [enc, encMembers_app] at h
      have := (List.append_eq_nil_iff.1 h).1
      unfold writeMapCode at this
      (repeat' split at this) <;> simp at this
    | arr xs =>
      rw [enc, encElems_app] at h
      have := (List.append_eq_nil_iff.1 h).1
      unfold writeArrayCode at this
      (repeat' split at this) <;> simp at this
    | dateTime c =>
      rw [enc] at h
      have := congrArg List.length h
      unfold writeTime overwrite at this
      simp only at this
      (repeat' split at this) <;> simp at this
    | exbin e b =>
      rw [enc] at h
      have := (List.append_eq_nil_iff.1 h).1
      unfold writeExtCode at this
      simp only at this
      (repeat' split at this) <;> simp at this
    | bin e b =>
      rw [enc] at h
      have := (List.append_eq_nil_iff.1 h).1
      unfold writeBinCode at this
      (repeat' split at this) <;> simp at this
    | int e c =>
      rw [enc] at h
      unfold writeInt at h
      (repeat' split at h) <;> simp at h
    | str t =>
      rw [enc] at h
      have := (List.append_eq_nil_iff.1 h).1
      unfold writeStrCode at this
      (repeat' split at this) <;> simp at this
    | raw t =>
      rw [enc] at h
      have := (List.append_eq_nil_iff.1 h).1
      unfold writeStrCode at this
      (repeat' split at this) <;> simp at this
    | nil => simp [enc] at h
    | null => simp [enc] at h
    | tru => simp [enc] at h
    | fls => simp [enc] at h
    | float c => simp [enc] at h
    | double c => simp [enc] at h
  · rintro (rfl | rfl) <;> rfl

/-- **C61 is false**: an array whose last element is NAN (or INF) is written as a truncated document, which the
decoder rejects. For every list of other elements. -/
theorem C61_msgpack_array_rejected (E : Env) (xs : List Val) (h : SupportedL xs) (hl : xs.length + 1 < 2 ^ 32)
    (v : Val) (hv : v = .nan ∨ v = .inf) :
    ∀ w, newValueFromMsgPack E (value2MsgPack E (.arr (xs ++ [v]))) ≠ .ok w := by
  have hsup : Supported (.arr (xs ++ [.null])) := by
    refine ⟨by simpa using hl, ?_⟩
    clear hl
    induction xs with
    | nil => exact ⟨trivial, trivial⟩
    | cons x xs ih => exact ⟨h.1, ih h.2⟩
  have hel : ∀ (ys : List Val) (u : Val) (d : Bytes), encElems E (ys ++ [u]) d = enc E u (encElems E ys d) := by
    intro ys u
    induction ys with
    | nil => intro d; rfl
    | cons y ys ih => intro d; exact ih _
  have e1 : value2MsgPack E (.arr (xs ++ [.null])) = value2MsgPack E (.arr (xs ++ [v])) ++ [0xc0] := by
    unfold value2MsgPack
    rw [enc, enc, hel, hel]
    rcases hv with rfl | rfl <;> simp [enc]
  exact C08_truncation E _ _ [0xc0] hsup e1 (by simp)

/-- Non-vacuity. -/
example : value2MsgPack envEx (.arr [.int 0 1, .nan]) = [0x92, 1] := by decide

/-- **C61**, for all supported values: the bytes are a serialisation of the value (`C02_encode_spec`), so there is
at least one. Missing: NAN and INF. -/
theorem C61_msgpack_partial (E : Env) (v : Val) (h : Supported v) : value2MsgPack E v ≠ [] := by
  rw [Ne, C61_msgpack_dropped]
  rintro (rfl | rfl) <;> exact h

/-! ## C63 (MessagePack part) -/

/-- **C63** for MessagePack: whatever keys occur, however often and at whatever depth, each key keeps its first
position and its last value (`lastWins`, file Assoc.lean): this is what `Denotes` says of maps. Here for the
members of one map, spelled out. -/
theorem C63_msgpack_lastWins (E : Env) (kvs : List (Bytes × MData)) (bs rest : Bytes) (h : Enc (.map kvs) bs)
    (hf : FitsM kvs) :
    ∃ ku vs, vs.map Prod.fst = kvs.map Prod.fst ∧ DenotesM E kvs vs ∧
      newValueFromMsgPack E (bs ++ rest) = .ok (.obj ku (Assoc.lastWins E.keyMatch vs)) := by
  obtain ⟨v, ⟨ku, vs, rfl, -, hv⟩, e⟩ := C01_newValueFromMsgPack E (.map kvs) bs rest h hf
  refine ⟨ku, vs, ?_, hv, e⟩
  clear e h hf
  induction kvs generalizing vs with
  | nil => have hv : vs = [] := hv; subst hv; rfl
  | cons x xs ih =>
    obtain ⟨k, d⟩ := x
    obtain ⟨v, vs', rfl, _, h2⟩ := hv
    simp [ih vs' h2]

/-- A map with a repeated key: `{"a":1,"b":2,"a":3}` is `{"a":3,"b":2}`. -/
example : newValueFromMsgPack envEx [0x83, 0xa1, 97, 1, 0xa1, 98, 2, 0xa1, 97, 3] =
    .ok (.obj true [([97], .int 0 3), ([98], .int 0 2)]) := by decide

/-! ## C67 -/

/-- **C67 is false**: every unsigned 64-bit integer from 2^63 on (valid MessagePack) is accepted and comes back
as a negative number, `n - 2^64`. -/
theorem C67_uint64_wrong (E : Env) (n : Nat) (rest : Bytes) (h1 : 2 ^ 63 ≤ n) (h2 : n < 2 ^ 64) :
    Enc (.int n) (0xcf :: be 8 n) ∧
    ∃ c : BitVec 64, parse E ((0xcf :: be 8 n) ++ rest) = .ok (.int 0 c, rest) ∧ c.toInt = (n : Int) - 2 ^ 64 := by
  refine ⟨?_, BitVec.ofNat 64 n, ?_, ?_⟩
  · right; right; right; right; right; left
    exact ⟨by omega, by omega, by simp⟩
  · unfold parse
    rw [List.cons_append]
    simp [parseValue, readCode, isStr, isArray, isMap, isFixedNum, parseUint64_be n h2]
  · rw [BitVec.toInt_eq_toNat_cond, BitVec.toNat_ofNat]
    split <;> omega

example : (2 : Nat) ^ 63 ≤ 18446744073709551615 ∧ 18446744073709551615 < (2 : Nat) ^ 64 := by decide

/-- **C67**, below 2^63: every format of the number is read as this number. Missing: the range above. -/
theorem C67_below_partial (E : Env) (n : Nat) (bs rest : Bytes) (h : Enc (.int n) bs) (h1 : n < 2 ^ 63) :
    ∃ c : BitVec 64, parse E (bs ++ rest) = .ok (.int 0 c, rest) ∧ c.toInt = n := by
  obtain ⟨v, ⟨c, rfl, hc⟩, e⟩ := C01_decode_spec E (.int n) bs rest h ⟨by omega, by omega⟩
  exact ⟨c, e, hc⟩

end Dxs.MsgPack
