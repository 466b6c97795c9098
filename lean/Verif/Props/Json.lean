import Verif.Json.Roundtrip
import Verif.EnvEx

/-!
# JSON properties
-/

namespace Dxs.Json

open Spec

/-! ## C05 (JSON part) -/

/-- C05: `Value2Json` appends to the caller's buffer, for every value, style and buffer. -/
theorem C05_json_appends (E : Env) (st : Style) (escDT : Bool) (v : Val) (dst : Bytes) :
    toJson E st escDT v dst = (toJson E st escDT v [] >>= fun t => .ok (dst ++ t)) :=
  toJson_appends E st escDT v dst

/-- C05: `Value2FormatJson` appends to the caller's buffer. -/
theorem C05_json_format_appends (E : Env) (st : Style) (escDT : Bool) (v : Val) (level : Nat) (dst : Bytes) :
    format E st escDT v level dst = (format E st escDT v level [] >>= fun t => .ok (dst ++ t)) :=
  format_appends E st escDT v level dst

example : toJson envEx .allEscape false (.obj true [([97], .arr [.tru, .nil])]) [1, 2] =
    .ok [1, 2, 123, 34, 97, 34, 58, 91, 116, 114, 117, 101, 44, 110, 117, 108, 108, 93, 125] := rfl

/-! ## C18 -/

/-- C18: every text of the grammar, with any whitespace around and inside, is read as the value it
describes. (A number that is the whole text is C25.) -/
theorem C18_decodes (E : Env) (d : JData) (w1 t w2 : Bytes) (hw1 : Ws w1) (hw2 : Ws w2) (ht : Text d t)
    (hn : ∀ s, d ≠ .num s) : newValueFromJson E (w1 ++ t ++ w2) = .ok (denote E d) :=
  newValue_text E d hw1 hw2 ht (fun ⟨s, h⟩ => absurd h (hn s))

theorem digits_numByte {t : Bytes} (h : Digits t) : ∀ c ∈ t, NumByte c := fun c hc => .inl (h.2 c hc)

/-- The grammar contains every number of RFC 8259. -/
theorem C18_rfc_numbers (t : Bytes) (h : RfcNumber t) : Text (.num t) t := by
  rw [Text]
  refine ⟨?_, rfl⟩
  obtain ⟨sign, int, frac, exp, rfl, hs, ⟨hi, _⟩, hf, he⟩ := h
  have hdig : ∃ c ∈ sign ++ int ++ frac ++ exp, (48 : UInt8) ≤ c ∧ c ≤ 57 := by
    obtain ⟨hne, hd⟩ := hi
    obtain ⟨c, r, rfl⟩ : ∃ c r, int = c :: r := by
      cases int with
      | nil => exact absurd rfl hne
      | cons c r => exact ⟨c, r, rfl⟩
    exact ⟨c, by simp, hd c (by simp)⟩
  obtain ⟨c, hc, hcd⟩ := hdig
  refine ⟨?_, ?_, ?_, ?_⟩
  · intro h0; rw [h0] at hc; simp at hc
  · intro x hx
    simp only [List.mem_append] at hx
    rcases hx with ((hx | hx) | hx) | hx
    · rcases hs with rfl | rfl
      · simp at hx
      · simp at hx; subst hx; exact .inr (.inr (.inl rfl))
    · exact digits_numByte hi x hx
    · rcases hf with rfl | ⟨d, hd, rfl⟩
      · simp at hx
      · simp at hx
        rcases hx with rfl | hx
        · exact .inr (.inl rfl)
        · exact digits_numByte hd x hx
    · rcases he with rfl | ⟨e, s, d, he', hs', hd, rfl⟩
      · simp at hx
      · simp at hx
        rcases hx with rfl | hx | hx
        · rcases he' with rfl | rfl
          · exact .inr (.inr (.inr (.inr (.inl rfl))))
          · exact .inr (.inr (.inr (.inr (.inr rfl))))
        · rcases hs' with rfl | rfl | rfl
          · simp at hx
          · simp at hx; subst hx; exact .inr (.inr (.inl rfl))
          · simp at hx; subst hx; exact .inr (.inr (.inr (.inl rfl)))
        · exact digits_numByte hd x hx
  · intro h0
    rw [h0] at hc; simp at hc; subst hc; exact absurd hcd (by decide)
  · intro h0
    rw [h0] at hc; simp at hc; subst hc; exact absurd hcd (by decide)

/-- Integers of the int64 range are read exactly, wherever they stand. -/
theorem C18_integers (E : Env) (I : IntLaw E) (c : BitVec 64) : denote E (.num (decInt c.toInt)) = .int 0 c := by
  rw [denote, if_neg (decInt_no_dot _), I c]; rfl

theorem intLaw_ex : IntLaw envEx := fun c => exInt_decInt c

/-- Non-vacuity: `{ "a\"": [1 , true] }`-like text with whitespace and an escaped string. -/
example : Text (.obj [([97], .arr [.num [49], .str [92, 34]])])
    [123, 32, 34, 97, 34, 58, 32, 91, 49, 32, 44, 34, 92, 34, 34, 93, 125] := by
  refine Or.inr ⟨_, ⟨[32], [], [32], [91, 49, 32, 44, 34, 92, 34, 34, 93], [], ?_, ws_nil, ?_, ws_nil,
    Or.inr ⟨_, ⟨[], [49], [32], ws_nil, ?_, ⟨⟨by simp, ?_, by simp, by simp⟩, rfl⟩,
      Or.inr ⟨[34, 92, 34, 34, 93], ⟨[], [34, 92, 34, 34], [], ws_nil, ws_nil, ⟨.esc 34 [] .nil, rfl⟩,
        Or.inl ⟨rfl, rfl⟩⟩, rfl⟩⟩, rfl⟩, by simp, Or.inl ⟨rfl, rfl⟩⟩, rfl⟩
  · intro c hc; simp at hc; exact .inl hc
  · intro c hc; simp at hc; exact .inl hc
  · intro c hc; simp at hc; exact .inl hc
  · intro c hc; simp at hc; subst hc; exact .inl (by decide)

/-! ## C19 -/

/-- C19, restricted to values none of whose strings looks like a JSON time: `Value2Json` with either
escaping style succeeds and parsing gives a value that reads the same. Missing: strings such as
`/Date(0)/` (see `C19_date_string_wrong`). -/
theorem C19_roundtrip_partial (E : Env) (L : EscLaw E) (I : IntLaw E) (a escDT : Bool) (v : Val)
    (h : Plain E a escDT v) (hc : (∃ ku kvs, v = .obj ku kvs) ∨ ∃ xs, v = .arr xs) :
    ∃ t r, value2Json E (styleOf a) escDT v = .ok t ∧ newValueFromJson E t = .ok r ∧ Reads E v r := by
  obtain ⟨t, ht, he⟩ := toJson_text E (styleOf a) escDT v (plain_enc E L a escDT v h) []
  refine ⟨t, _, he, ?_, plain_reads E L I a escDT v (.inr h)⟩
  have := C18_decodes E (data E (styleOf a) escDT v) [] t [] ws_nil ws_nil ht (by
    rcases hc with ⟨ku, kvs, rfl⟩ | ⟨xs, rfl⟩ <;> intro s <;> rw [data] <;> simp)
  simpa using this

theorem exEsc_body (s : Bytes) : StrBody (exEsc s) := by
  induction s using exEsc.induct with
  | case1 r ih => rw [exEsc]; exact .esc _ _ ih
  | case2 r ih => rw [exEsc]; exact .esc _ _ ih
  | case3 r ih => rw [exEsc]; exact .esc _ _ ih
  | case4 c r h1 h2 h3 ih => rw [exEsc]; exact .char _ _ h1 h2 ih; all_goals assumption
  | case5 => exact .nil

theorem exUnesc_exEsc (s : Bytes) : exUnesc (exEsc s) = s := by
  induction s using exEsc.induct with
  | case1 r ih => rw [exEsc, exUnesc, ih]; intro h; exact absurd h (by decide)
  | case2 r ih => rw [exEsc, exUnesc, ih]; intro h; exact absurd h (by decide)
  | case3 r ih => rw [exEsc, exUnesc, ih]
  | case4 c r h1 h2 h3 ih =>
    rw [exEsc]
    · rw [exUnesc, ih]
      · intro r hc; exact absurd hc h2
      · intro c r hc; exact absurd hc h2
    all_goals assumption
  | case5 => rfl

theorem exEsc_noQuote (s : Bytes) (h : 34 ∉ s) : 34 ∉ exEsc s := by
  induction s using exEsc.induct with
  | case1 r ih => simp at h
  | case2 r ih => rw [exEsc]; simp at h ⊢; exact ih h
  | case3 r ih => rw [exEsc]; simp at h ⊢; exact ih h
  | case4 c r h1 h2 h3 ih =>
    rw [exEsc]
    · simp at h ⊢; exact ⟨h.1, ih h.2⟩
    all_goals assumption
  | case5 => exact h

/-- The laws are satisfiable. -/
theorem escLaw_ex : EscLaw envEx where
  body _ s := exEsc_body s
  inv _ s := exUnesc_exEsc s
  noQuote _ s h := exEsc_noQuote s h

/-- Non-vacuity of C19: nested value with an escaped string, a raw string, an escaped key and a hole. -/
example : Plain envEx true false (.obj false [([92, 110], .arr [.str [34, 92], .raw [92, 34], .nil, .int 0 (-7)]),
    ([98], .obj true [([10], .null)])]) := by
  refine ⟨by decide, ⟨.inr rfl, .inr ⟨.esc 34 [] .nil, rfl⟩, .inl rfl, .inr trivial, trivial⟩, by decide,
    ⟨by decide, trivial, trivial⟩, trivial⟩

/-- The text `/Date(0)/`. -/
def dateText : Bytes := [47, 68, 97, 116, 101, 40, 48, 41, 47]

/-- An environment that recognises `/Date(0)/` as a time, as `ParserJsonTime` does. -/
def envDate : Env := { envEx with jsonTime := fun s => if s = dateText then some 0 else none }

/-- C19 is false: the string `/Date(0)/` comes back as a time, whenever `ParserJsonTime` recognises it. -/
theorem C19_date_string_wrong (E : Env) (x : F64) (h : E.jsonTime (E.esc true dateText) = some x) (L : EscLaw E) :
    ∃ t, value2Json E .allEscape false (.arr [.str dateText]) = .ok t ∧
      newValueFromJson E t = .ok (.arr [.dateTime x]) ∧ ¬ Reads E (.arr [.str dateText]) (.arr [.dateTime x]) := by
  have henc : Enc E .allEscape false (.arr [.str dateText]) := by
    rw [Enc, EncL, EncL, Enc]; exact ⟨.inr (L.body true _), trivial⟩
  obtain ⟨t, ht, he⟩ := toJson_text E .allEscape false _ henc []
  refine ⟨t, he, ?_, ?_⟩
  · have := C18_decodes E _ [] t [] ws_nil ws_nil ht (by rw [data]; simp)
    rw [data, dataL, dataL, data, denote, denoteL, denoteL, denote] at this
    simp only [strText, h] at this
    simpa using this
  · rw [Reads]
    rintro ⟨ys, hy, hl⟩
    cases hy
    rw [ReadsL] at hl
    obtain ⟨y, ys', hy, hr, _⟩ := hl
    cases hy
    rw [Reads] at hr
    obtain ⟨s', hs, _⟩ := hr
    cases hs

example : EscLaw envDate ∧ envDate.jsonTime (envDate.esc true dateText) = some 0 :=
  ⟨⟨fun _ s => exEsc_body s, fun _ s => exUnesc_exEsc s, fun _ s h => exEsc_noQuote s h⟩, by decide⟩

/-! ## C20 -/

/-- C20: the formatted and the compact text of the same value parse to the same value.
Missing: bare numbers (C25), names written with a quote in them (C27), texts that are written without escapes and so are no JSON, a nil value. -/
theorem C20_same_partial (E : Env) (st : Style) (escDT : Bool) (v : Val) (h : Enc E st escDT v)
    (hn : ∀ s, data E st escDT v ≠ .num s) :
    ∃ t1 t2 r, value2Json E st escDT v = .ok t1 ∧ value2FormatJson E st escDT v = .ok t2 ∧
      newValueFromJson E t1 = .ok r ∧ newValueFromJson E t2 = .ok r := by
  obtain ⟨t1, h1, e1⟩ := toJson_text E st escDT v h []
  obtain ⟨t2, h2, e2⟩ := format_text E st escDT v h 0 []
  refine ⟨t1, t2, denote E (data E st escDT v), e1, e2, ?_, ?_⟩
  · simpa using C18_decodes E _ [] t1 [] ws_nil ws_nil h1 hn
  · simpa using C18_decodes E _ [] t2 [] ws_nil ws_nil h2 hn

example : Enc envEx .onlyAnsi true (.obj true [([97], .arr [.int 0 3, .obj false []]), ([98], .arr [])]) ∧
    ∀ s, data envEx .onlyAnsi true (.obj true [([97], .arr [.int 0 3, .obj false []]), ([98], .arr [])]) ≠ .num s := by
  refine ⟨⟨by decide, ⟨.inr trivial, .inr trivial, trivial⟩, by decide, trivial, trivial⟩, ?_⟩
  intro s; rw [data]; simp

/-! ## C21 -/

/-- C21: for every byte string the decoder returns a value (or nil) or an error. It neither panics nor runs
forever. -/
theorem C21_total (E : Env) (b : Bytes) :
    (∃ v, newValueFromJson E b = .ok v) ∨ ∃ e, newValueFromJson E b = .err e := by
  rcases newValue_good E b with h | ⟨e, h, _⟩
  · exact .inl h
  · exact .inr ⟨e, h⟩

/-- C21, every internal parser: with three units of fuel per byte no panic, no exhausted fuel, and what
remains is a proper suffix of the input. -/
theorem C21_consumes (E : Env) (b : Bytes) (fuel : Nat) (hf : 3 * b.length + 3 ≤ fuel) :
    (∃ v t, parseValue E fuel b = .ok (v, t) ∧ t <:+ b ∧ t.length < b.length) ∨
      ∃ e, parseValue E fuel b = .err e := by
  have h := (good_all E fuel).1 b hf
  cases hv : parseValue E fuel b with
  | ok p => rw [hv] at h; exact .inl ⟨p.1, p.2, rfl, h⟩
  | err e => exact .inr ⟨e, rfl⟩
  | panic => rw [hv] at h; exact h.elim
  | loop => rw [hv] at h; exact h.elim

/-! ## C22 -/

/-- C22: if an object, array or string text is accepted, then the same text followed by anything that
contains a non-whitespace byte is rejected. -/
theorem C22_garbage (E : Env) (b : Bytes) (v : Val) (g : Bytes) (h : newValueFromJson E b = .ok v)
    (hs : selfEnding (sk b)) (hg : ¬ Ws g) : ∃ e, newValueFromJson E (b ++ g) = .err e := by
  have hne : sk b ≠ [] := by intro h0; simp [selfEnding, h0] at hs
  unfold newValueFromJson at h ⊢
  rw [skipWB_eq b] at h
  rw [skipWB_eq (b ++ g), sk_append g hne]
  dsimp only at h ⊢
  rw [Res.bind_eq_ok] at h
  obtain ⟨⟨v1, t⟩, hv, h⟩ := h
  dsimp only at h
  rw [skipWB_eq t] at h
  dsimp only at h
  split at h
  · cases h
  · rename_i hl
    have happ := (append_all E g _ (3 * (sk b ++ g).length + 3) (by rw [List.length_append]; omega)).1 _ _ _ hv (.inr hs)
    rw [happ, Res.bind_ok]
    dsimp only
    rw [skipWB_eq (t ++ g)]
    dsimp only
    rw [if_pos]
    · exact ⟨_, rfl⟩
    · have ht : sk t = [] := by
        cases hx : sk t with
        | nil => rfl
        | cons a r => rw [hx] at hl; simp at hl
      refine List.length_pos_iff.2 ?_
      intro h0
      apply hg
      intro c hc
      have h1 : ∀ x ∈ t ++ g, isWB x = true := by
        have hd : (t ++ g).dropWhile isWB = [] := h0
        have ht := List.takeWhile_append_dropWhile (p := isWB) (l := t ++ g)
        rw [hd, List.append_nil] at ht
        intro x hx
        rw [← ht] at hx
        exact List.all_eq_true.1 List.all_takeWhile x hx
      have := (isWB_iff c).1 (h1 c (by simp [hc]))
      exact this

example : newValueFromJson envEx [91, 93] = .ok (.arr []) ∧ selfEnding (sk [91, 93]) ∧ ¬ Ws [32, 93] :=
  ⟨by rfl, .inr (.inl (by decide)), fun h => absurd (h 93 (by simp)) (by decide)⟩

/-! ## C23 -/

/-- C23: the string scanner returns `s` with tail `t` exactly when `s` is followed by a quote preceded by an
even number of backslashes and every earlier quote is preceded by an odd number. -/
theorem C23_scanner (b s t : Bytes) : parseString b = .ok (s, t) ↔
    b = s ++ 34 :: t ∧ tb s % 2 = 0 ∧ ∀ p q, s = p ++ 34 :: q → tb p % 2 = 1 := by
  rw [parseString_eq, strRes, ← strBody_iff, and_comm, ← scan_iff]
  cases scan b <;> simp

/-- C23: otherwise it fails with the "no string end" error. -/
theorem C23_fails (b : Bytes) : (¬ ∃ s t, b = s ++ 34 :: t ∧ tb s % 2 = 0) ↔
    parseString b = .err (.json .noStrEnd 0 []) := by
  rw [parseString_eq, strRes]
  constructor
  · intro h
    cases hs : scan b with
    | none => rfl
    | some p =>
      obtain ⟨h1, h2⟩ := (scan_iff b p.1 p.2).1 hs
      exact absurd ⟨p.1, p.2, h2, ((strBody_iff _).1 h1).1⟩ h
  · rintro h ⟨s, t, rfl, he⟩
    -- the first quote with an even number of backslashes
    have key : ∀ n (s : Bytes), s.length ≤ n → tb s % 2 = 0 → ∀ t, ∃ s' t', StrBody s' ∧ s ++ 34 :: t = s' ++ 34 :: t' := by
      intro n
      induction n with
      | zero =>
        intro s hs _ t
        have : s = [] := by simpa using hs
        subst this
        exact ⟨[], t, .nil, rfl⟩
      | succ n ih =>
        intro s hs he t
        by_cases hq : ∀ p q, s = p ++ 34 :: q → tb p % 2 = 1
        · exact ⟨s, t, (strBody_iff s).2 ⟨he, hq⟩, rfl⟩
        · simp only [Classical.not_forall] at hq
          obtain ⟨p, q, rfl, hp⟩ := hq
          obtain ⟨s', t', hs', e⟩ := ih p (by simp at hs; omega) (by omega) (q ++ 34 :: t)
          exact ⟨s', t', hs', by simpa using e⟩
    obtain ⟨s', t', hs', e⟩ := key _ s (Nat.le_refl _) he t
    rw [(scan_iff _ s' t').2 ⟨hs', e⟩] at h
    cases h

example : parseString [97, 92, 92, 92, 34, 98, 92, 92, 34, 99] = .ok ([97, 92, 92, 92, 34, 98, 92, 92], [99]) := by
  rw [parseString_eq]; rfl

/-! ## C24 -/

/-- C24 is false: every input of at least three bytes that starts with `n`, other than `null...` and
`nan...`, is read as NAN. -/
theorem C24_wrong_accepted (E : Env) (f : Nat) (r : Bytes) (hl : 2 ≤ r.length)
    (h1 : ¬ [110, 117, 108, 108] <+: 110 :: r) (h2 : ¬ [110, 97, 110] <+: 110 :: r) :
    parseValue E (f + 1) (110 :: r) = .ok (.nan, r.drop 2) := by
  rw [parseValue_lit E f r (by decide) (by decide) (by decide), parseLit_n, if_neg h1,
    if_pos ⟨by simp; omega, h2⟩]
  rfl

/-- C24 is false: `nan` is always rejected. -/
theorem C24_nan_rejected (E : Env) (f : Nat) (r : Bytes) :
    parseValue E (f + 1) (110 :: 97 :: 110 :: r) = .err .jsonInvalid := by
  rw [parseValue_lit E f _ (by decide) (by decide) (by decide), parseLit_n, if_neg (by simp),
    if_neg (by simp)]

/-- `nul`, as a whole document. -/
example : newValueFromJson envEx [110, 117, 108] = .ok .nan := by rfl

/-- C24, what is left: `null` is read as null, and shorter or `nan` tokens are errors. Missing: the tokens of
`C24_wrong_accepted`. -/
theorem C24_null_partial (E : Env) (f : Nat) (r : Bytes) :
    parseValue E (f + 1) (110 :: 117 :: 108 :: 108 :: r) = .ok (.null, r) ∧
    (r.length < 2 → parseValue E (f + 1) (110 :: r) = .err .jsonInvalid) := by
  constructor
  · rw [parseValue_lit E f _ (by decide) (by decide) (by decide), parseLit_n, if_pos (by simp)]
    rfl
  · intro h
    rw [parseValue_lit E f _ (by decide) (by decide) (by decide), parseLit_n, if_neg, if_neg]
    · simp; omega
    · intro hp; have := hp.length_le; simp at this; omega

/-! ## C25 -/

/-- C25 is false: a text consisting of a number only yields a nil pointer and no error. -/
theorem C25_number_lost (E : Env) (t : Bytes) (h : NumLike t) : newValueFromJson E t = .ok .nil := by
  obtain ⟨c, r, rfl, hw, _⟩ := text_head (.num t) t (by rw [Text]; exact ⟨h, rfl⟩)
  unfold newValueFromJson
  rw [skipWB_eq]
  have hsk : sk (c :: r) = c :: r := dropWhile_not hw
  rw [hsk]
  dsimp only
  have ha := numByte_facts (h.2.1 c (by simp))
  rw [parseValue_lit E _ r ha.2.2.2.1 ha.2.2.2.2.1 ha.2.2.2.2.2.1,
      parseLit_num E _ ha.2.2.2.2.2.2.1 ha.2.2.2.2.2.2.2.1 ha.2.2.2.2.2.2.2.2,
      parseNum_all E (fun x hx => (isNumCh_iff x).2 (h.2.1 x hx)), Res.bind_ok]
  rfl

/-- C25, when whitespace follows the number. -/
theorem C25_number_partial (E : Env) (t w1 w2 : Bytes) (h : NumLike t) (h1 : Ws w1) (h2 : Ws w2) (hne : w2 ≠ []) :
    newValueFromJson E (w1 ++ t ++ w2) = .ok (denote E (.num t)) :=
  newValue_text E (.num t) h1 h2 (by rw [Text]; exact ⟨h, rfl⟩) (fun _ => hne)

example : newValueFromJson envEx [49, 50] = .ok .nil ∧ newValueFromJson envEx [49, 50, 10] = .ok (.int 0 12) := by
  constructor <;> rfl

/-! ## C26 -/

/-- C26 is false: the error for an unterminated non-empty key panics when printed. -/
theorem C26_error_panics (E : Env) (k : Bytes) (hk : 34 ∉ k) (hne : k ≠ []) :
    ∃ e, newValueFromJson E (123 :: 34 :: k) = .err e ∧ errorString e = .panic := by
  refine ⟨.json .noKeyStart k.length [], ?_, ?_⟩
  · unfold newValueFromJson
    rw [skipWB_eq]
    have hsk : sk (123 :: 34 :: k) = 123 :: 34 :: k := dropWhile_not (by decide)
    have hsk2 : sk (34 :: k) = 34 :: k := dropWhile_not (by decide)
    rw [hsk]
    dsimp only
    rw [show 3 * (123 :: 34 :: k).length + 3 = (3 * k.length + 6) + 1 + 1 + 1 by simp; omega,
      parseValue_obj, parseObj_loop E _ hsk2 (by decide), objLoop_nokey E _ [] hsk2 hk]
    rfl
  · rw [errorString_panic_iff]
    simpa [List.length_pos_iff] using hne

/-- C26 for the rejected inputs with nothing after their last quote (or without quotes). Missing: the other inputs,
of which `C26_exact` says which errors can be printed and `C26_texts` which inputs lead to them. -/
theorem C26_partial (E : Env) (b : Bytes) (e : Err) (h : newValueFromJson E b = .err e)
    (hb : ∀ pre k, b = pre ++ 34 :: k → 34 ∉ k → k = []) : errorString e ≠ .panic := by
  rcases newValue_good E b with ⟨v, h'⟩ | ⟨e', h', he⟩
  · rw [h] at h'; cases h'
  · rw [h] at h'
    cases h'
    rcases he with he | ⟨pre, k, h1, h2, h3, _⟩
    · exact he
    · exact absurd (hb pre k h1 h2) h3

example : newValueFromJson envEx [91, 32, 34] = .err (.json .noStrEnd 0 []) ∧
    ∀ pre k, [91, 32, (34 : UInt8)] = pre ++ 34 :: k → 34 ∉ k → k = [] := by
  refine ⟨rfl, ?_⟩
  intro pre k h _
  rcases pre with _ | ⟨a, _ | ⟨b, _ | ⟨c, pre⟩⟩⟩ <;> simp_all

/-! ## C27 -/

/-- C27 is false: a key ends at the first quote even if it is escaped. -/
theorem C27_key_cut (k t : Bytes) (hk : 34 ∉ k) : parseKey (k ++ 92 :: 34 :: t) = .ok (k ++ [92], t) := by
  have h := parseKey_ok (k := k ++ [92]) (by simpa using hk) t
  simpa using h

/-- C27 is false: an object whose first key contains an escaped quote is rejected, unless a colon happens to
follow that quote. -/
theorem C27_rejected (E : Env) (k r : Bytes) (hk : 34 ∉ k) (hr : (sk r).head? ≠ some 58) :
    ∃ e, newValueFromJson E (123 :: 34 :: (k ++ 92 :: 34 :: r)) = .err e := by
  unfold newValueFromJson
  rw [skipWB_eq]
  have hsk : sk (123 :: 34 :: (k ++ 92 :: 34 :: r)) = 123 :: 34 :: (k ++ 92 :: 34 :: r) := dropWhile_not (by decide)
  have hsk2 : sk (34 :: (k ++ 92 :: 34 :: r)) = 34 :: ((k ++ [92]) ++ 34 :: r) := by
    rw [sk, dropWhile_not (by decide)]; simp
  rw [hsk]
  dsimp only
  rw [show 3 * (123 :: 34 :: (k ++ 92 :: 34 :: r)).length + 3 = (3 * (k ++ 92 :: 34 :: r).length + 6) + 1 + 1 + 1 by
    simp; omega, parseValue_obj, parseObj_loop E _ hsk2 (by decide)]
  have hsk3 : sk (34 :: ((k ++ [92]) ++ 34 :: r)) = 34 :: ((k ++ [92]) ++ 34 :: r) := dropWhile_not (by decide)
  rw [objLoop_nocolon E _ [] hsk3 (by simpa using hk) hr]
  exact ⟨_, rfl⟩

/-- `{"a\"b":1}` is valid JSON and rejected. -/
example : newValueFromJson envEx [123, 34, 97, 92, 34, 98, 34, 58, 49, 125] =
    .err (.json .noKVSplit 0 [98, 34, 58, 49, 125]) := by rfl

/-- C27, for keys without a quote: the key is read up to the closing quote. Missing: keys with `\"`. -/
theorem C27_partial (k t : Bytes) (hk : 34 ∉ k) : parseKey (k ++ 34 :: t) = .ok (k, t) := parseKey_ok hk t

/-! ## C59, C60: numbers -/

/-- C59 is false: a number with an exponent but no decimal point goes through `StrToIntDef(_, 0)`; if that
does not understand exponents the number is read as 0. -/
theorem C59_exponent_wrong (E : Env) (t : Bytes) (h : NumLike t) (hd : 46 ∉ t) (hi : E.strToInt t = none) :
    newValueFromJson E (91 :: (t ++ [93])) = .ok (.arr [.int 0 0]) := by
  have := C18_decodes E (.arr [.num t]) [] (91 :: (t ++ [93])) [] ws_nil ws_nil (by
    rw [Text]; right
    refine ⟨t ++ [93], ?_, rfl⟩
    rw [TextL]
    exact ⟨[], t, [], ws_nil, ws_nil, by rw [Text]; exact ⟨h, rfl⟩, .inl ⟨rfl, by simp⟩⟩) (by simp)
  rw [denote, denoteL, denoteL, denote, if_neg hd, hi] at this
  simpa using this

/-- `[1e5]` is read as `[0]`. -/
example : newValueFromJson envEx [91, 49, 101, 53, 93] = .ok (.arr [.int 0 0]) :=
  C59_exponent_wrong envEx [49, 101, 53]
    ⟨by simp, by intro c hc; simp at hc; rcases hc with rfl | rfl | rfl <;> simp [NumByte] , by simp, by simp⟩
    (by simp) (by rfl)

/-- C59 for numbers with a decimal point (an exponent may follow): the value is `StrToFloatDef` rounded to
float32. Missing: exponents without a decimal point. -/
theorem C59_decimal_partial (E : Env) (t : Bytes) (h : NumLike t) (hd : 46 ∈ t) (x : F64) (hx : E.strToFloat t = some x) :
    newValueFromJson E (91 :: (t ++ [93])) = .ok (.arr [.ofF32 (E.f64to32 x)]) := by
  have := C18_decodes E (.arr [.num t]) [] (91 :: (t ++ [93])) [] ws_nil ws_nil (by
    rw [Text]; right
    refine ⟨t ++ [93], ?_, rfl⟩
    rw [TextL]
    exact ⟨[], t, [], ws_nil, ws_nil, by rw [Text]; exact ⟨h, rfl⟩, .inl ⟨rfl, by simp⟩⟩) (by simp)
  rw [denote, denoteL, denoteL, denote, if_pos hd, hx] at this
  simpa using this

/-- C60 is false for every double: it comes back as a float32 or as an integer, never as a double. -/
theorem C60_double_lost (E : Env) (st : Style) (escDT : Bool) (c : F64) (h : NumLike (E.fmtFloat c)) :
    ∃ t r, value2Json E st escDT (.arr [.double c]) = .ok t ∧ newValueFromJson E t = .ok (.arr [r]) ∧
      r.vt ≠ .double := by
  have henc : Enc E st escDT (.arr [.double c]) := by
    rw [Enc, EncL, EncL, Enc]; exact ⟨.inr h, trivial⟩
  obtain ⟨t, ht, he⟩ := toJson_text E st escDT _ henc []
  refine ⟨t, denote E (.num (E.fmtFloat c)), he, ?_, ?_⟩
  · have := C18_decodes E _ [] t [] ws_nil ws_nil ht (by rw [data]; simp)
    rw [data, dataL, dataL, data, denote, denoteL, denoteL] at this
    simpa using this
  · rcases denote_num E (E.fmtFloat c) with ⟨c', h'⟩ | ⟨e, c', h'⟩ <;> rw [h'] <;> simp [Val.vt]

/-- C60 for float32 values that print with a decimal point, when `StrToFloatDef` inverts printing and
widening is invertible. Missing: integral floats (they come back as integers) and doubles. -/
theorem C60_float_partial (E : Env) (st : Style) (escDT : Bool) (c : BitVec 64)
    (h : NumLike (E.fmtFloat (E.f32to64 (lo32 c)))) (hd : 46 ∈ E.fmtFloat (E.f32to64 (lo32 c)))
    (hp : E.strToFloat (E.fmtFloat (E.f32to64 (lo32 c))) = some (E.f32to64 (lo32 c)))
    (hw : E.f64to32 (E.f32to64 (lo32 c)) = lo32 c) :
    ∃ t c', value2Json E st escDT (.arr [.float c]) = .ok t ∧ newValueFromJson E t = .ok (.arr [.float c']) ∧
      lo32 c' = lo32 c := by
  have henc : Enc E st escDT (.arr [.float c]) := by
    rw [Enc, EncL, EncL, Enc]; exact ⟨.inr h, trivial⟩
  obtain ⟨t, ht, he⟩ := toJson_text E st escDT _ henc []
  refine ⟨t, setLo32 0 (lo32 c), he, ?_, lo32_setLo32 _ _⟩
  have := C18_decodes E _ [] t [] ws_nil ws_nil ht (by rw [data]; simp)
  rw [data, dataL, dataL, data, denote, denoteL, denoteL, denote, if_pos hd, hp] at this
  simpa [hw, Val.ofF32] using this

/-- An environment in which the hypotheses hold (for the float with bits 5, printed `.5`). -/
example : ∃ E : Env, NumLike (E.fmtFloat (E.f32to64 (lo32 5))) ∧ 46 ∈ E.fmtFloat (E.f32to64 (lo32 5)) ∧
    E.strToFloat (E.fmtFloat (E.f32to64 (lo32 5))) = some (E.f32to64 (lo32 5)) ∧
    E.f64to32 (E.f32to64 (lo32 5)) = lo32 5 := by
  refine ⟨{ envEx with fmtFloat := fun _ => [46, 53], strToFloat := fun _ => some 5 }, ⟨by simp, ?_, by simp, by simp⟩,
    by simp, by decide, by decide⟩
  intro c hc
  simp at hc
  rcases hc with rfl | rfl <;> simp [NumByte]

/-- C26, exactly, for every rejected input: printing the error panics if and only if it is the error of the key
reader that met no closing quote in the non-empty rest of the input after its last quote. -/
theorem C26_exact (E : Env) (b : Bytes) (e : Err) (h : newValueFromJson E b = .err e) :
    errorString e = .panic ↔ ∃ pre k, b = pre ++ 34 :: k ∧ 34 ∉ k ∧ k ≠ [] ∧ e = .json .noKeyStart k.length [] := by
  constructor
  · intro hp
    rcases newValue_good E b with ⟨v, h'⟩ | ⟨e', h', he⟩
    · rw [h] at h'; cases h'
    · rw [h] at h'
      cases h'
      exact he.resolve_left fun hn => hn hp
  · rintro ⟨pre, k, _, _, hk, rfl⟩
    exact (errorString_panic_iff _ _ _).2 (List.length_pos_iff.2 hk)

/-- `{"a":1 x`: rejected with something after the last quote, and the error can be printed. -/
example : ∃ e, newValueFromJson envEx [123, 34, 97, 34, 58, 49, 32, 120] = .err e ∧ errorString e ≠ .panic := ⟨_, rfl, by decide⟩
/-- `{"a":{"b`: an unterminated key that is not the first; the error cannot be printed. -/
example : ∃ e, newValueFromJson envEx [123, 34, 97, 34, 58, 123, 34, 98] = .err e ∧ errorString e = .panic := ⟨_, rfl, by decide⟩

/-! ## C26: what the message shows -/

/-- C26: a message that can be built shows the (at most) 32 bytes at the position of the error. -/
theorem C26_window (x : JET) (idx : Nat) (b s : Bytes) (h : errorString (.json x idx b) = .ok s) :
    s = (b.drop idx).take 32 := by
  simp only [errorString] at h
  by_cases hl : b.length > idx + 32
  · rw [if_pos hl, if_pos (by omega)] at h
    injection h with h
    rw [← h, List.drop_take, show idx + 32 - idx = 32 by omega]
  · rw [if_neg hl] at h
    split at h
    · injection h with h
      rw [← h, List.take_of_length_le (Nat.le_refl _), List.take_of_length_le (by simp; omega)]
    · cases h

example : errorString (.json .invalidate 1 [32, 93]) = .ok [93] := rfl

/-! ## C19: the style without escaping -/

/-- C19: with `JSE_NoEscape` the text of a string is the string itself and the text of a key is the key without
its escapes, whatever these functions do. -/
theorem C19_noEscape_verbatim (E : Env) (escDT ku : Bool) (k s dst : Bytes) :
    toJson E .noEscape escDT (.obj ku [(k, .str s)]) dst =
      .ok (dst ++ [123, 34] ++ (if ku then k else E.unesc k) ++ [34, 58, 34] ++ s ++ [34, 125]) := by
  simp [toJson, toJsonM, keyText, strText]

example : value2Json envEx .noEscape false (.obj true [([97], .str [34])]) = .ok [123, 34, 97, 34, 58, 34, 34, 34, 125] :=
  rfl

/-! ## C61 (JSON part) -/

/-- The values for which `Value2Json` writes nothing. -/
def Unwritten (v : Val) : Prop := v.vt = .binary ∨ v.vt = .exBinary ∨ v.vt = .nan ∨ v.vt = .inf

/-- **C61 is false** for JSON (1): binaries, extension values, NAN and INF are written as nothing. An array
holding only such a value is written as the empty array, so the value is lost without an error. -/
theorem C61_json_dropped (E : Env) (st : Style) (escDT : Bool) (v : Val) (h : Unwritten v) :
    value2Json E st escDT v = .ok [] ∧ value2Json E st escDT (.arr [v]) = .ok [91, 93] ∧
      newValueFromJson E [91, 93] = .ok (.arr []) := by
  refine ⟨?_, ?_, rfl⟩ <;> cases v <;> simp [Unwritten, Val.vt] at h <;> rfl

/-- **C61 is false** for JSON (2): as the member of an object such a value leads to a text that is not JSON, which
this library itself rejects (for keys written without a quote). -/
theorem C61_json_object_rejected (E : Env) (st : Style) (escDT ku : Bool) (k : Bytes) (v : Val) (h : Unwritten v)
    (hk : 34 ∉ keyText E st ku k) :
    ∃ t e, value2Json E st escDT (.obj ku [(k, v)]) = .ok t ∧ newValueFromJson E t = .err e := by
  refine ⟨123 :: 34 :: (keyText E st ku k ++ [34, 58, 125]), .jsonInvalid, ?_, ?_⟩
  · cases v <;> simp [Unwritten, Val.vt] at h <;> simp [value2Json, toJson, toJsonM]
  · generalize keyText E st ku k = q at hk ⊢
    unfold newValueFromJson
    rw [skipWB_eq]
    have hsk : sk (123 :: 34 :: (q ++ [34, 58, 125])) = 123 :: 34 :: (q ++ [34, 58, 125]) := dropWhile_not (by decide)
    have hsk2 : sk (34 :: (q ++ [34, 58, 125])) = 34 :: (q ++ 34 :: [58, 125]) := dropWhile_not (by decide)
    have hsk3 : sk [58, 125] = 58 :: [125] := dropWhile_not (by decide)
    have hsk4 : sk [125] = [125] := dropWhile_not (by decide)
    have hn : parseNum E [125] = .err .jsonInvalid := rfl
    rw [hsk]
    dsimp only
    rw [show 3 * (123 :: 34 :: (q ++ [34, 58, 125])).length + 3 = (3 * q.length + 14) + 1 + 1 + 1 + 1 by simp; omega,
      parseValue_obj, parseObj_loop E _ hsk2 (by decide), objLoop_member E _ [] hsk2 hk hsk3, hsk4,
      parseValue_lit E _ [] (by decide) (by decide) (by decide), parseLit_num E _ (by decide) (by decide) (by decide), hn]
    rfl

/-- **C61** (partial): all other values are written as at least one byte; for those the text is a text of the
grammar (C18, C19). -/
theorem C61_json_partial (E : Env) (st : Style) (escDT : Bool) (v : Val) (h : Enc E st escDT v) :
    ∃ t, value2Json E st escDT v = .ok t ∧ t ≠ [] ∧ Text (data E st escDT v) t := by
  obtain ⟨t, ht, he⟩ := toJson_text E st escDT v h []
  refine ⟨t, he, ?_, ht⟩
  obtain ⟨c, r, rfl, _⟩ := text_head _ t ht
  simp

example : Unwritten (.bin 0 [1]) ∧ 34 ∉ keyText envEx .allEscape false [97] := by
  simp [Unwritten, Val.vt, keyText]

/-! ## C65 (JSON part) -/

mutual
/-- Some member of an object (at any depth) is nil. Nil elements of arrays are written as `null`. -/
def NilMember : Val → Prop
  | .obj _ kvs => NilMemberM kvs
  | .arr xs => NilMemberL xs
  | _ => False
def NilMemberL : List Val → Prop
  | [] => False
  | v :: vs => NilMember v ∨ NilMemberL vs
def NilMemberM : List (Bytes × Val) → Prop
  | [] => False
  | (_, v) :: kvs => (v = .nil ∨ NilMember v) ∨ NilMemberM kvs
end

mutual
theorem toJson_panic (E : Env) (st : Style) (escDT : Bool) : ∀ (v : Val) (dst : Bytes),
    (v = .nil ∨ NilMember v → toJson E st escDT v dst = .panic) ∧
    (¬ (v = .nil ∨ NilMember v) → ∃ o, toJson E st escDT v dst = .ok o)
  | .nil, _ => by simp [toJson]
  | .obj ku kvs, dst => by
    obtain ⟨h1, h2⟩ := toJsonM_panic E st escDT ku kvs 0 (dst ++ [123])
    constructor
    · intro h; simp [NilMember] at h; simp [toJson, h1 h]
    · intro h; simp [NilMember] at h; obtain ⟨o, ho⟩ := h2 h; simp [toJson, ho]
  | .arr xs, dst => by
    obtain ⟨h1, h2⟩ := toJsonL_panic E st escDT xs 0 (dst ++ [91])
    constructor
    · intro h; simp [NilMember] at h; simp [toJson, h1 h]
    · intro h; simp [NilMember] at h; obtain ⟨o, ho⟩ := h2 h; simp [toJson, ho]
  | .str _, _ | .raw _, _ | .float _, _ | .double _, _ | .tru, _ | .fls, _ | .int _ _, _
  | .dateTime _, _ | .null, _ | .bin _ _, _ | .exbin _ _, _ | .nan, _ | .inf, _ => by simp [NilMember, toJson]
theorem toJsonM_panic (E : Env) (st : Style) (escDT ku : Bool) : ∀ (kvs : List (Bytes × Val)) (i : Nat) (dst : Bytes),
    (NilMemberM kvs → toJsonM E st escDT ku kvs i dst = .panic) ∧
    (¬ NilMemberM kvs → ∃ o, toJsonM E st escDT ku kvs i dst = .ok o)
  | [], _, _ => by simp [NilMemberM, toJsonM]
  | (k, v) :: kvs, i, dst => by
    obtain ⟨h1, h2⟩ := toJson_panic E st escDT v
      ((if i ≠ 0 then dst ++ [44, 34] else dst ++ [34]) ++ keyText E st ku k ++ [34, 58])
    simp only [NilMemberM, toJsonM]
    by_cases hv : v = .nil ∨ NilMember v
    · rw [h1 hv]; simp [hv]
    · obtain ⟨o, ho⟩ := h2 hv
      obtain ⟨h3, h4⟩ := toJsonM_panic E st escDT ku kvs (i + 1) o
      rw [ho]
      simpa only [hv, false_or, Res.bind_ok] using ⟨h3, h4⟩
theorem toJsonL_panic (E : Env) (st : Style) (escDT : Bool) : ∀ (vs : List Val) (i : Nat) (dst : Bytes),
    (NilMemberL vs → toJsonL E st escDT vs i dst = .panic) ∧
    (¬ NilMemberL vs → ∃ o, toJsonL E st escDT vs i dst = .ok o)
  | [], _, _ => by simp [NilMemberL, toJsonL]
  | v :: vs, i, dst => by
    by_cases hn : v = .nil
    · subst hn
      obtain ⟨h3, h4⟩ := toJsonL_panic E st escDT vs (i + 1) ((if i ≠ 0 then dst ++ [44] else dst) ++ [110, 117, 108, 108])
      simp only [NilMemberL, toJsonL, NilMember, false_or, Res.bind_ok]
      exact ⟨h3, h4⟩
    · obtain ⟨h1, h2⟩ := toJson_panic E st escDT v (if i ≠ 0 then dst ++ [44] else dst)
      have e : toJsonL E st escDT (v :: vs) i dst = (toJson E st escDT v (if i ≠ 0 then dst ++ [44] else dst) >>=
          fun d => toJsonL E st escDT vs (i + 1) d) := by
        cases v <;> first | exact absurd rfl hn | rfl
      rw [e]
      simp only [hn, false_or] at h1 h2
      simp only [NilMemberL]
      by_cases hv : NilMember v
      · rw [h1 hv]; simp [hv]
      · obtain ⟨o, ho⟩ := h2 hv
        obtain ⟨h3, h4⟩ := toJsonL_panic E st escDT vs (i + 1) o
        rw [ho]
        simpa only [hv, false_or, Res.bind_ok] using ⟨h3, h4⟩
end

/-- **C65 is false** for JSON, and this is exactly when: `Value2Json` panics for nil and for a nil member of an
object at any depth; in every other case it returns a text. -/
theorem C65_json_panics (E : Env) (st : Style) (escDT : Bool) (v : Val) :
    (value2Json E st escDT v = .panic ↔ v = .nil ∨ NilMember v) ∧
    (¬ (v = .nil ∨ NilMember v) → ∃ t, value2Json E st escDT v = .ok t) := by
  obtain ⟨h1, h2⟩ := toJson_panic E st escDT v []
  refine ⟨⟨fun h => ?_, h1⟩, h2⟩
  by_cases hv : v = .nil ∨ NilMember v
  · exact hv
  · obtain ⟨o, ho⟩ := h2 hv
    rw [value2Json, ho] at h
    cases h

mutual
/-- A binary the formatter cannot print: shorter than 12 bytes, or than 16 for a Decimal128. -/
def ShortBin : Val → Prop
  | .bin ext b => b.length < 12 ∨ (ext = 0x13 ∧ b.length < 16)
  | .obj _ kvs => ShortBinM kvs
  | .arr xs => ShortBinL xs
  | _ => False
def ShortBinL : List Val → Prop
  | [] => False
  | v :: vs => ShortBin v ∨ ShortBinL vs
def ShortBinM : List (Bytes × Val) → Prop
  | [] => False
  | (_, v) :: kvs => ShortBin v ∨ ShortBinM kvs
end

theorem binText_panic (E : Env) (ext : UInt8) (b : Bytes) :
    (ShortBin (.bin ext b) → binText E ext b = .panic) ∧ (¬ ShortBin (.bin ext b) → ∃ o, binText E ext b = .ok o) := by
  simp only [ShortBin, binText, upTo]
  by_cases h7 : ext = 7
  · subst h7
    by_cases hl : 12 ≤ b.length
    · simp [hl]
    · simp [hl]
  · by_cases h19 : ext = 0x13
    · subst h19
      by_cases hl : 16 ≤ b.length
      · simp [hl]; omega
      · simp [hl]
    · by_cases hl : 12 ≤ b.length
      · simp [h7, h19, hl]
      · simp [h7, h19, hl]

mutual
theorem format_panic (E : Env) (st : Style) (escDT : Bool) : ∀ (v : Val) (l : Nat) (dst : Bytes),
    (v = .nil ∨ NilMember v ∨ ShortBin v → format E st escDT v l dst = .panic) ∧
    (¬ (v = .nil ∨ NilMember v ∨ ShortBin v) → ∃ o, format E st escDT v l dst = .ok o)
  | .nil, _, _ => by simp [format]
  | .obj ku kvs, l, dst => by
    obtain ⟨h1, h2⟩ := formatM_panic E st escDT ku kvs 0 l (dst ++ [123, 13, 10])
    constructor
    · intro h; simp [NilMember, ShortBin] at h; simp [format, h1 h]
    · intro h; simp [NilMember, ShortBin] at h; obtain ⟨o, ho⟩ := h2 (by simpa using h); simp [format, ho]
  | .arr xs, l, dst => by
    obtain ⟨h1, h2⟩ := formatL_panic E st escDT xs 0 l (dst ++ [91, 13, 10])
    constructor
    · intro h; simp [NilMember, ShortBin] at h; simp [format, h1 h]
    · intro h; simp [NilMember, ShortBin] at h; obtain ⟨o, ho⟩ := h2 (by simpa using h); simp [format, ho]
  | .bin ext b, _, dst => by
    obtain ⟨h1, h2⟩ := binText_panic E ext b
    simp only [NilMember, format, reduceCtorEq, false_or]
    constructor
    · intro h; rw [h1 h]; rfl
    · intro h; obtain ⟨o, ho⟩ := h2 h; rw [ho]; exact ⟨_, rfl⟩
  | .str _, _, _ | .raw _, _, _ | .float _, _, _ | .double _, _, _ | .tru, _, _ | .fls, _, _ | .int _ _, _, _
  | .dateTime _, _, _ | .null, _, _ | .exbin _ _, _, _ | .nan, _, _ | .inf, _, _ => by
    simp [NilMember, ShortBin, format]
theorem formatM_panic (E : Env) (st : Style) (escDT ku : Bool) : ∀ (kvs : List (Bytes × Val)) (i l : Nat) (dst : Bytes),
    (NilMemberM kvs ∨ ShortBinM kvs → formatM E st escDT ku kvs i l dst = .panic) ∧
    (¬ (NilMemberM kvs ∨ ShortBinM kvs) → ∃ o, formatM E st escDT ku kvs i l dst = .ok o)
  | [], _, _, _ => by simp [NilMemberM, ShortBinM, formatM]
  | (k, v) :: kvs, i, l, dst => by
    obtain ⟨h1, h2⟩ := format_panic E st escDT v (l + 1)
      ((if i ≠ 0 then dst ++ [44, 13, 10] else dst) ++ spaces (l + 1) ++ [34] ++ keyText E st ku k ++ [34, 58])
    have e : (NilMemberM ((k, v) :: kvs) ∨ ShortBinM ((k, v) :: kvs)) ↔
        ((v = .nil ∨ NilMember v ∨ ShortBin v) ∨ (NilMemberM kvs ∨ ShortBinM kvs)) := by
      simp only [NilMemberM, ShortBinM]; grind
    rw [e]
    simp only [formatM]
    by_cases hv : v = .nil ∨ NilMember v ∨ ShortBin v
    · rw [h1 hv]; simp [hv]
    · obtain ⟨o, ho⟩ := h2 hv
      obtain ⟨h3, h4⟩ := formatM_panic E st escDT ku kvs (i + 1) l o
      rw [ho]
      simpa only [hv, false_or, Res.bind_ok] using ⟨h3, h4⟩
theorem formatL_panic (E : Env) (st : Style) (escDT : Bool) : ∀ (vs : List Val) (i l : Nat) (dst : Bytes),
    (NilMemberL vs ∨ ShortBinL vs → formatL E st escDT vs i l dst = .panic) ∧
    (¬ (NilMemberL vs ∨ ShortBinL vs) → ∃ o, formatL E st escDT vs i l dst = .ok o)
  | [], _, _, _ => by simp [NilMemberL, ShortBinL, formatL]
  | v :: vs, i, l, dst => by
    have e : (NilMemberL (v :: vs) ∨ ShortBinL (v :: vs)) ↔
        ((NilMember v ∨ ShortBin v) ∨ (NilMemberL vs ∨ ShortBinL vs)) := by
      simp only [NilMemberL, ShortBinL]; grind
    rw [e]
    by_cases hn : v = .nil
    · subst hn
      obtain ⟨h3, h4⟩ := formatL_panic E st escDT vs (i + 1) l
        ((if i ≠ 0 then dst ++ [44, 13, 10] else dst) ++ spaces (l + 1) ++ [110, 117, 108, 108])
      simp only [formatL, NilMember, ShortBin, false_or, Res.bind_ok]
      exact ⟨h3, h4⟩
    · obtain ⟨h1, h2⟩ := format_panic E st escDT v (l + 1) ((if i ≠ 0 then dst ++ [44, 13, 10] else dst) ++ spaces (l + 1))
      have e : formatL E st escDT (v :: vs) i l dst =
          (format E st escDT v (l + 1) ((if i ≠ 0 then dst ++ [44, 13, 10] else dst) ++ spaces (l + 1)) >>=
          fun d => formatL E st escDT vs (i + 1) l d) := by
        cases v <;> first | exact absurd rfl hn | rfl
      rw [e]
      simp only [hn, false_or] at h1 h2
      by_cases hv : NilMember v ∨ ShortBin v
      · rw [h1 hv]; simp [hv]
      · obtain ⟨o, ho⟩ := h2 hv
        obtain ⟨h3, h4⟩ := formatL_panic E st escDT vs (i + 1) l o
        rw [ho]
        simpa only [hv, false_or, Res.bind_ok] using ⟨h3, h4⟩
end

/-- **C65 is false** for formatted JSON, and this is exactly when: additionally to nil members, every binary
shorter than 12 bytes (16 for Decimal128), at any depth. -/
theorem C65_format_panics (E : Env) (st : Style) (escDT : Bool) (v : Val) :
    (value2FormatJson E st escDT v = .panic ↔ v = .nil ∨ NilMember v ∨ ShortBin v) ∧
    (¬ (v = .nil ∨ NilMember v ∨ ShortBin v) → ∃ t, value2FormatJson E st escDT v = .ok t) := by
  obtain ⟨h1, h2⟩ := format_panic E st escDT v 0 []
  refine ⟨⟨fun h => ?_, h1⟩, h2⟩
  by_cases hv : v = .nil ∨ NilMember v ∨ ShortBin v
  · exact hv
  · obtain ⟨o, ho⟩ := h2 hv
    rw [value2FormatJson, ho] at h
    cases h

example : NilMember (.arr [.obj false [([97], .nil)]]) ∧ ¬ NilMember (.arr [.nil]) ∧
    ShortBin (.arr [.bin 0 [1]]) ∧ ¬ ShortBin (.arr [.exbin 0 [1]]) := by
  simp [NilMember, NilMemberL, NilMemberM, ShortBin, ShortBinL]

/-! ## C66 -/

/-- `b` and `name` are equal up to the case of ASCII letters. -/
def SameFold (b name : Bytes) : Prop := foldAscii b = foldAscii name
where
  /-- Lower-case ASCII letters. -/
  foldAscii (b : Bytes) : Bytes := b.map fun c => if 65 ≤ c.toNat ∧ c.toNat ≤ 90 then UInt8.ofNat (c.toNat + 32) else c

theorem foldIs_same (b name : Bytes) (hn : SameFold.foldAscii name = name) : foldIs b name = true ↔ SameFold b name := by
  have : (fun c : UInt8 => if 65 ≤ c ∧ c ≤ 90 then c + 32 else c) =
      fun c => if 65 ≤ c.toNat ∧ c.toNat ≤ 90 then UInt8.ofNat (c.toNat + 32) else c := by
    funext c
    have h : (65 ≤ c ∧ c ≤ 90) ↔ (65 ≤ c.toNat ∧ c.toNat ≤ 90) := by
      rw [UInt8.le_iff_toNat_le, UInt8.le_iff_toNat_le]; exact Iff.rfl
    simp only [h]
    split
    · apply UInt8.toNat.inj
      simp [UInt8.toNat_add]
    · rfl
  simp only [foldIs, beq_iff_eq, SameFold, hn]
  rw [this]
  rfl

/-- **C66 is false**: infinities are read in any letter case and with any sign, and the sign is lost: `-inf` and
`+inf` and `inf` all give the same value. (`n...` without a sign is read by the code of C24.) -/
theorem C66_sign_lost (E : Env) (f : Nat) (sign w r : Bytes) (hs : sign = [] ∨ sign = [45] ∨ sign = [43])
    (hw : SameFold w [105, 110, 102]) : parseValue E (f + 1) (sign ++ w ++ r) = .ok (.inf, r) := by
  have hl : w.length = 3 := by
    have := congrArg List.length hw
    simpa [SameFold.foldAscii] using this
  have hfold := (foldIs_same w [105, 110, 102] (by decide)).2 hw
  obtain ⟨c, w', rfl⟩ : ∃ c w', w = c :: w' := by
    cases w with
    | nil => simp at hl
    | cons c w' => exact ⟨c, w', rfl⟩
  have hc : c = 105 ∨ c = 73 := by
    simp only [foldIs, List.map_cons, beq_iff_eq, List.cons.injEq] at hfold
    have h := hfold.1
    split at h
    · right
      have := congrArg (· - 32) h
      simpa using this
    · exact .inl h
  have hn : parseNum E (sign ++ c :: w' ++ r) = .ok (.inf, r) := by
    rw [List.append_assoc, List.cons_append, parseNum_stop E (w' ++ r) ?_ ?_]
    · rw [numEnd]
      simp at hl
      simp [hs, hl, hfold]
    · rcases hs with rfl | rfl | rfl <;> simp <;> decide
    · rcases hc with rfl | rfl <;> decide
  rcases hs with rfl | rfl | rfl
  · rcases hc with rfl | rfl <;>
    · rw [List.nil_append, List.cons_append, parseValue_lit E f _ (by decide) (by decide) (by decide),
        parseLit_num E _ (by decide) (by decide) (by decide)]
      simpa using hn
  all_goals
    rw [List.append_assoc, List.singleton_append, parseValue_lit E f _ (by decide) (by decide) (by decide),
      parseLit_num E _ (by decide) (by decide) (by decide)]
    simpa using hn

/-- **C66** (partial): with a sign, NAN too is read in any letter case. -/
theorem C66_nan_partial (E : Env) (f : Nat) (s : UInt8) (w r : Bytes) (hs : s = 45 ∨ s = 43)
    (hw : SameFold w [110, 97, 110]) : parseValue E (f + 1) (s :: (w ++ r)) = .ok (.nan, r) := by
  have hl : w.length = 3 := by
    have := congrArg List.length hw
    simpa [SameFold.foldAscii] using this
  have hfold := (foldIs_same w [110, 97, 110] (by decide)).2 hw
  have hfold' : foldIs w [105, 110, 102] = false := by
    rw [foldIs, beq_iff_eq] at hfold
    rw [foldIs, hfold]
    decide
  obtain ⟨c, w', rfl⟩ : ∃ c w', w = c :: w' := by
    cases w with
    | nil => simp at hl
    | cons c w' => exact ⟨c, w', rfl⟩
  have hc : c = 110 ∨ c = 78 := by
    simp only [foldIs, List.map_cons, beq_iff_eq, List.cons.injEq] at hfold
    have h := hfold.1
    split at h
    · right
      have := congrArg (· - 32) h
      simpa using this
    · exact .inl h
  have hn : parseNum E ([s] ++ c :: (w' ++ r)) = .ok (.nan, r) := by
    rw [parseNum_stop E (w' ++ r) ?_ ?_]
    · rw [numEnd]
      simp at hl
      have hs' : [s] = [] ∨ [s] = [45] ∨ [s] = [43] := by simpa using hs
      rw [if_pos hs']
      simp [hl, hfold, hfold']
    · rcases hs with rfl | rfl <;> simp <;> decide
    · rcases hc with rfl | rfl <;> decide
  rcases hs with rfl | rfl
  all_goals
    rw [parseValue_lit E f _ (by decide) (by decide) (by decide),
      parseLit_num E _ (by decide) (by decide) (by decide)]
    simpa using hn

example : SameFold [73, 110, 70] [105, 110, 102] ∧
    newValueFromJson envEx [91, 45, 73, 110, 70, 93] = .ok (.arr [.inf]) := by
  constructor <;> rfl

end Dxs.Json
