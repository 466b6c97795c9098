import Verif.IO.Model
import Verif.Json.Encode
import Verif.EnvEx

/-!
# C49, C50, C51, C75, C76: files
-/

namespace Dxs.IO

/-! ## C49 -/

/-- What one `Read` gives, when it does not fail. -/
theorem read_some {o : Os} {i k : Nat} {rem : Bytes} (hf : o.fail i = false) (hk : 0 < k) (hr : rem ≠ []) :
    ∃ n, 1 ≤ n ∧ n ≤ k ∧ n ≤ rem.length ∧ (read o i k rem = (n, none) ∨ (read o i k rem = (n, some true) ∧ n = rem.length)) := by
  have hl : 0 < rem.length := List.length_pos_iff.mpr hr
  unfold read
  rw [if_neg (by simp [hf]), if_neg (by omega), if_neg hr]
  refine ⟨max 1 (min (o.want i) (min k rem.length)), by omega, by omega, by omega, ?_⟩
  dsimp only
  split
  · rename_i h; exact Or.inr ⟨rfl, h.1⟩
  · exact Or.inl rfl

theorem readLoop_all (o : Os) (hf : ∀ i, o.fail i = false) : ∀ (f i : Nat) (buf : Bytes) (len : Nat) (rem : Bytes), len ≤ buf.length → rem.length < f →
    readLoop o f i buf len rem = .ok (buf.take len ++ rem, false)
  | 0, _, _, _, _, _, h => by omega
  | f + 1, i, buf, len, rem, hl, h => by
    rw [readLoop]
    generalize hb : (if buf.length ≤ len then buf ++ 0 :: List.replicate (o.extra buf.length) 0 else buf) = buf'
    have hlt : len < buf'.length := by
      rw [← hb]; split
      · simp; omega
      · omega
    have htk : buf'.take len = buf.take len := by
      rw [← hb]; split
      · rw [List.take_append_of_le_length (by omega)]
      · rfl
    by_cases hr : rem = []
    · have : read o i (buf'.length - len) rem = (0, some true) := by
        unfold read; rw [if_neg (by simp [hf]), if_neg (by omega), if_pos hr]
      rw [this]
      subst hr
      simp only [List.take_nil, List.append_nil, Nat.add_zero, Bool.not_true]
      rw [List.take_append_of_le_length (by simp; omega), List.take_take, Nat.min_self, htk]
    · obtain ⟨n, h1, h2, h3, h4⟩ := read_some (hf i) (show 0 < buf'.length - len by omega) hr
      have hbuf : (buf'.take len ++ rem.take n ++ (buf'.drop (len + n)).map (o.scratch i)).take (len + n) = buf.take len ++ rem.take n := by
        have : (buf'.take len ++ rem.take n).length = len + n := by simp; omega
        rw [List.take_append_of_le_length (by omega), List.take_of_length_le (by omega), htk]
      rcases h4 with e | ⟨e, hn⟩
      · rw [e]
        dsimp only
        rw [readLoop_all o hf f (i + 1) _ (len + n) (rem.drop n) (by simp; omega) (by simp; omega), hbuf, List.append_assoc, List.take_append_drop]
      · rw [e]
        dsimp only
        rw [hbuf, hn, List.take_length]
        rfl

/-- C49: `ReadFile` returns exactly the contents, for every way the reads are split, every size `Stat` reports (or an error), every way the
buffer grows and whatever the reads leave in the rest of the buffer. -/
theorem C49_readFile (o : Os) (hf : ∀ i, o.fail i = false) (c : Bytes) (f : Nat) (h : c.length < f) : readFile o f (some c) = .ok (c, false) := by
  unfold readFile
  dsimp only
  rw [readLoop_all o hf f 0 _ 0 c (by simp) h]
  rfl

theorem readLoop_part (o : Os) : ∀ (f i : Nat) (buf : Bytes) (len : Nat) (rem : Bytes), len ≤ buf.length → rem.length < f →
    ∃ p e, readLoop o f i buf len rem = .ok (buf.take len ++ p, e) ∧ p <+: rem ∧ (e = false → p = rem)
  | 0, _, _, _, _, _, h => by omega
  | f + 1, i, buf, len, rem, hl, h => by
    rw [readLoop]
    generalize hb : (if buf.length ≤ len then buf ++ 0 :: List.replicate (o.extra buf.length) 0 else buf) = buf'
    have hlt : len < buf'.length := by
      rw [← hb]; split
      · simp; omega
      · omega
    have htk : buf'.take len = buf.take len := by
      rw [← hb]; split
      · rw [List.take_append_of_le_length (by omega)]
      · rfl
    have hbuf : ∀ n, n ≤ buf'.length - len → n ≤ rem.length → (buf'.take len ++ rem.take n ++ (buf'.drop (len + n)).map (o.scratch i)).take (len + n) = buf.take len ++ rem.take n := by
      intro n h1 h2
      have : (buf'.take len ++ rem.take n).length = len + n := by simp; omega
      rw [List.take_append_of_le_length (by omega), List.take_of_length_le (by omega), htk]
    by_cases hff : o.fail i = true
    · have : read o i (buf'.length - len) rem = (min (o.want i) (min (buf'.length - len) rem.length), some false) := by
        unfold read; rw [if_pos hff]
      rw [this]
      exact ⟨_, true, by dsimp only; rw [hbuf _ (by omega) (by omega)]; rfl, List.take_prefix _ _, nofun⟩
    have hf' : o.fail i = false := by simpa using hff
    by_cases hr : rem = []
    · have : read o i (buf'.length - len) rem = (0, some true) := by
        unfold read; rw [if_neg hff, if_neg (by omega), if_pos hr]
      rw [this]
      exact ⟨[], false, by dsimp only; rw [hbuf _ (by omega) (by omega)]; simp, List.nil_prefix, fun _ => hr.symm⟩
    · obtain ⟨n, h1, h2, h3, h4⟩ := read_some hf' (show 0 < buf'.length - len by omega) hr
      rcases h4 with e | ⟨e, hn⟩
      · rw [e]
        dsimp only
        obtain ⟨p, e', h5, h6, h7⟩ := readLoop_part o f (i + 1) (buf'.take len ++ rem.take n ++ (buf'.drop (len + n)).map (o.scratch i)) (len + n) (rem.drop n) (by simp; omega) (by simp; omega)
        refine ⟨rem.take n ++ p, e', by rw [h5, hbuf n h2 h3, List.append_assoc], ?_, fun he => by rw [h7 he, List.take_append_drop]⟩
        obtain ⟨t, ht⟩ := h6
        exact ⟨t, by rw [List.append_assoc, ht, List.take_append_drop]⟩
      · rw [e]
        refine ⟨rem, false, ?_, List.prefix_refl _, fun _ => rfl⟩
        dsimp only
        rw [hbuf n h2 h3, hn, List.take_length]
        rfl

/-- C49, reads that fail included: `ReadFile` always ends, what it returns is the start of the file, and without error it is the whole file. -/
theorem C49_readFile_errors (o : Os) (c : Bytes) (f : Nat) (h : c.length < f) : ∃ p e, readFile o f (some c) = .ok (p, e) ∧ p <+: c ∧ (e = false → p = c) := by
  unfold readFile
  obtain ⟨p, e, h1, h2⟩ := readLoop_part o f 0 (List.replicate (firstCap o.stat) 0) 0 c (by simp) h
  exact ⟨p, e, h1, h2⟩

/-- An operating system that reports the size `2 ^ 63 - 1`, gives one byte at a time and dirties the buffer. -/
example : (readFile { stat := some (BitVec.ofNat 64 (2 ^ 63 - 1)), want := fun _ => 0, early := fun _ => true, fail := fun _ => false, scratch := fun _ _ => 7, extra := fun _ => 3 } 9 (some [1, 2, 3, 4])) = .ok ([1, 2, 3, 4], false) := by
  decide +kernel

/-! ## C50 -/

/-- A number never starts with the byte `0xEF`. -/
def FloatAscii (E : Env) : Prop := ∀ x, (E.fmtFloat x).head? ≠ some 0xEF

/-- The texts that cannot be taken for a mark. -/
def NoMark (t : Bytes) : Prop := t.head? ≠ some 0xEF

theorem noMark_cons {c : UInt8} (h : c ≠ 0xEF) (t : Bytes) : NoMark (c :: t) := by simpa [NoMark] using h

theorem noMark_num (n : Int) : NoMark (decInt n) := by
  have h : ∀ m : Nat, NoMark (decNat m) := by
    intro m hc
    have := (Json.digitsAux_digit (m + 1) m 0xEF (List.mem_of_mem_head? hc)).2
    exact absurd this (by decide)
  unfold decInt
  split
  · exact noMark_cons (by decide) _
  · exact h _

theorem noMark_time (E : Env) (b : Bool) (c : BitVec 64) : NoMark (Json.timeText E b c) := by
  unfold Json.timeText
  split <;> exact noMark_cons (by decide) _

/-- What starts with a byte keeps it. -/
theorem appends_first {f : Bytes → Res Bytes} (h : Json.Appends f) {c : UInt8} {r t : Bytes} (e : f (c :: r) = .ok t) : ∃ t', t = c :: t' := by
  rw [h] at e
  obtain ⟨x, -, hx⟩ := Res.bind_eq_ok.mp e
  cases hx
  exact ⟨_, rfl⟩

theorem noMark_toJson {E : Env} (F : FloatAscii E) {st : Json.Style} {dt : Bool} {v : Val} {t : Bytes} (h : Json.toJson E st dt v [] = .ok t) : NoMark t := by
  cases v with
  | obj ku kvs =>
    rw [Json.toJson] at h
    obtain ⟨x, h1, h2⟩ := Res.bind_eq_ok.mp h
    obtain ⟨t', rfl⟩ := appends_first (Json.toJsonM_appends E st dt ku kvs 0) h1
    cases h2
    exact noMark_cons (by decide) _
  | arr xs =>
    rw [Json.toJson] at h
    obtain ⟨x, h1, h2⟩ := Res.bind_eq_ok.mp h
    obtain ⟨t', rfl⟩ := appends_first (Json.toJsonL_appends E st dt xs 0) h1
    cases h2
    exact noMark_cons (by decide) _
  | float c => rw [Json.toJson] at h; cases h; exact F _
  | double c => rw [Json.toJson] at h; cases h; exact F _
  | int e c => rw [Json.toJson] at h; cases h; exact noMark_num _
  | dateTime c => rw [Json.toJson] at h; cases h; exact noMark_time E dt c
  | nil => rw [Json.toJson] at h; cases h
  | _ => rw [Json.toJson] at h; cases h; simp [NoMark]

theorem noMark_bin {E : Env} {e : UInt8} {b t : Bytes} (h : Json.binText E e b = .ok t) : NoMark t := by
  unfold Json.binText at h
  split at h
  · obtain ⟨x, -, h2⟩ := Res.bind_eq_ok.mp h; cases h2; exact noMark_cons (by decide) _
  split at h
  · obtain ⟨x, -, h2⟩ := Res.bind_eq_ok.mp h; cases h2; exact noMark_cons (by decide) _
  · obtain ⟨x, -, h2⟩ := Res.bind_eq_ok.mp h; cases h2; exact noMark_cons (by decide) _

theorem noMark_format {E : Env} (F : FloatAscii E) {st : Json.Style} {dt : Bool} {v : Val} {n : Nat} {t : Bytes} (h : Json.format E st dt v n [] = .ok t) : NoMark t := by
  cases v with
  | obj ku kvs =>
    rw [Json.format] at h
    obtain ⟨x, h1, h2⟩ := Res.bind_eq_ok.mp h
    obtain ⟨t', rfl⟩ := appends_first (Json.formatM_appends E st dt ku kvs 0 n) h1
    cases h2
    exact noMark_cons (by decide) _
  | arr xs =>
    rw [Json.format] at h
    obtain ⟨x, h1, h2⟩ := Res.bind_eq_ok.mp h
    obtain ⟨t', rfl⟩ := appends_first (Json.formatL_appends E st dt xs 0 n) h1
    cases h2
    exact noMark_cons (by decide) _
  | bin e b =>
    rw [Json.format] at h
    obtain ⟨x, h1, h2⟩ := Res.bind_eq_ok.mp h
    cases h2
    exact noMark_bin h1
  | float c => rw [Json.format] at h; cases h; exact F _
  | double c => rw [Json.format] at h; cases h; exact F _
  | int e c => rw [Json.format] at h; cases h; exact noMark_num _
  | dateTime c => rw [Json.format] at h; cases h; exact noMark_time E dt c
  | nil => rw [Json.format] at h; cases h
  | _ => rw [Json.format] at h; cases h; simp [NoMark]

theorem stripBom_noMark {t : Bytes} (h : NoMark t) : stripBom t = t := by
  unfold stripBom
  rw [if_neg]
  rintro ⟨-, e⟩
  apply h
  cases t with
  | nil => cases e
  | cons c r => simp [bom] at e; simp [e.1]

theorem stripBom_bom (t : Bytes) : stripBom (bom ++ t) = t := by
  unfold stripBom
  rw [if_pos ⟨by simp [bom], by simp [bom]⟩]
  rfl

/-- C50: a file written by `Value2File`, with or without the mark, formatted or not, over whatever was there, is read as its text, for every
value that can be written and every way the reads are split. -/
theorem C50_file_roundtrip {E : Env} (F : FloatAscii E) (o : Os) (hf : ∀ i, o.fail i = false) (bomFile fmt : Bool) (v : Val) {t : Bytes} (ht : fileText E fmt v = .ok t) (old : Option Bytes)
    (f : Nat) (hl : t.length + 3 < f) :
    ∃ file, value2File E bomFile fmt v false none none old = .ok (false, some file) ∧
      newValueFromJsonFile E o f (some file) = (Json.newValueFromJson E t).bind (fun v => .ok (some v)) := by
  have hm : NoMark t := by
    unfold fileText at ht
    split at ht
    · exact noMark_format F ht
    · exact noMark_toJson F ht
  have hstrip : stripBom ((if bomFile then bom else []) ++ t) = t := by
    cases bomFile with
    | true => exact stripBom_bom t
    | false => exact stripBom_noMark hm
  refine ⟨(if bomFile then bom else []) ++ t, ?_, ?_⟩
  · unfold value2File
    rw [if_neg (by simp), ht]
    cases bomFile <;> rfl
  · unfold newValueFromJsonFile
    rw [C49_readFile o hf _ f (by cases bomFile <;> simp [bom] <;> omega)]
    simp only [bind, Res.bind, Bool.false_eq_true, if_false, hstrip]

/-- Times are written as text, not as `/Date(..)/`, formatted or not. -/
example : value2File envEx false false (.dateTime 0) false none none none = .ok (false, some [34, 48, 34]) ∧
    value2File envEx false true (.dateTime 0) false none none none = .ok (false, some [34, 48, 34]) := ⟨rfl, rfl⟩

/-- With the values that C19 and C20 cover, the value comes back; here one with a string and a nested array, in a marked file. -/
example : (value2File envEx true false (.obj true [([97], .arr [.tru, .str [98]])]) false none none (some [1])) =
    .ok (false, some [0xEF, 0xBB, 0xBF, 123, 34, 97, 34, 58, 91, 116, 114, 117, 101, 44, 34, 98, 34, 93, 125]) := rfl

/-! ## C51 -/

/-- C51, partly: when the process stops during `Value2File` the file is as before, or it is the beginning of the new contents. -/
theorem C51_crash_prefix_partial (E : Env) (bomFile fmt : Bool) (v : Val) {t : Bytes} (ht : fileText E fmt v = .ok t) (old c : Option Bytes)
    (h : Crash (value2FileActs E bomFile fmt v).1 old c) : c = old ∨ ∃ p, c = some p ∧ p <+: (if bomFile then bom else []) ++ t := by
  have hw : ∀ (b d : Bytes) (c : Option Bytes), Crash [.write b] (some d) c → ∃ p, c = some (d ++ p) ∧ p <+: b := by
    intro b d c h
    cases h with
    | stop => exact ⟨[], by simp, List.nil_prefix⟩
    | part b l c n => exact ⟨_, rfl, List.take_prefix _ _⟩
    | step h =>
      cases h with
      | stop => exact ⟨b, rfl, List.prefix_refl _⟩
  unfold value2FileActs at h
  rw [ht] at h
  cases bomFile with
  | false =>
    cases h with
    | stop => exact Or.inl rfl
    | step h =>
      obtain ⟨p, h1, h2⟩ := hw _ _ _ h
      exact Or.inr ⟨p, by simpa using h1, by simpa using h2⟩
  | true =>
    cases h with
    | stop => exact Or.inl rfl
    | step h =>
      right
      cases h with
      | stop => exact ⟨[], rfl, List.nil_prefix⟩
      | part b l c n => exact ⟨bom.take n, rfl, (List.take_prefix _ _).trans (List.prefix_append _ _)⟩
      | step h =>
        obtain ⟨p, h1, h2⟩ := hw _ _ _ h
        exact ⟨bom ++ p, h1, (List.prefix_append_right_inj _).mpr h2⟩

/-- C51 is false for every value and every file: the process can stop with an empty file. -/
theorem C51_crash_loses_file (E : Env) (bomFile fmt : Bool) (v : Val) (old : Option Bytes) : Crash (value2FileActs E bomFile fmt v).1 old (some []) := by
  unfold value2FileActs
  dsimp only
  split <;> exact .step (.stop _ _)

/-- The same without a crash: a value that cannot be written (here a member that is nil) panics after the file was emptied. -/
theorem C51_panic_loses_file (E : Env) (bomFile fmt ku : Bool) (k : Bytes) : value2FileActs E bomFile fmt (.obj ku [(k, .nil)]) = (.trunc :: (if bomFile then [.write bom] else []), .panic) := by
  have : fileText E fmt (.obj ku [(k, .nil)]) = .panic := by
    unfold fileText
    split
    · simp [Json.value2FormatJson, Json.format, Json.formatM]
    · simp [Json.value2Json, Json.toJson, Json.toJsonM]
  unfold value2FileActs
  rw [this]

/-! ## C75 -/

/-- C75, partly: without the mark, `Value2File` reports success only if the file holds the text, whatever fails. -/
theorem C75_success_complete_partial (E : Env) (fmt : Bool) (v : Val) (op : Bool) (fail1 fail2 : Option Nat) (old c : Option Bytes)
    (h : value2File E false fmt v op fail1 fail2 old = .ok (false, c)) : ∃ t, fileText E fmt v = .ok t ∧ c = some t := by
  unfold value2File at h
  cases op with
  | true => cases h
  | false =>
    obtain ⟨t, h1, h2⟩ := Res.bind_eq_ok.mp (by simpa using h)
    refine ⟨t, h1, ?_⟩
    cases fail2 with
    | none => simpa [writeFail] using h2.symm
    | some n => simp [writeFail] at h2

/-- C75 is false with the mark: a write of the mark that fails after one byte is not reported, and the file cannot be read. -/
theorem C75_bom_error_lost (E : Env) : value2File E true false .null false (some 1) none none = .ok (false, some [0xEF, 110, 117, 108, 108]) := rfl

theorem C75_bom_error_unreadable : Json.newValueFromJson envEx (stripBom [0xEF, 110, 117, 108, 108]) ≠ .ok .null := by decide

/-! ## C76 -/

/-- C76 is false for every binary and every file: `SaveBinaryToFile` opens the file for reading, empties it and reports an error. -/
theorem C76_save_fails (e : UInt8) (b : Bytes) (fail : Option Nat) (old : Option Bytes) : saveBinary (.bin e b) fail old = (true, some []) := by
  cases old <;> rfl

/-- The same for extended binaries; without data there is not even an error. -/
theorem C76_save_ext_fails (e : UInt8) (b : Bytes) (fail : Option Nat) (old : Option Bytes) : saveBinary (.exbin e b) fail old = (decide (0 < b.length), some []) := by
  cases b <;> cases old <;> rfl

/-- C76, what holds: other values leave the file alone. -/
theorem C76_others_partial (v : Val) (h1 : v.vt ≠ .binary) (h2 : v.vt ≠ .exBinary) (fail : Option Nat) (old : Option Bytes) : saveBinary v fail old = (false, old) := by
  cases v <;> first | rfl | exact absurd rfl h1 | exact absurd rfl h2

end Dxs.IO
