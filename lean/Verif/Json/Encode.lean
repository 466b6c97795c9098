import Verif.Json.Decode

/-!
# The encoders write texts of the grammar
-/

namespace Dxs.Json

open Spec

variable (E : Env)

/-- The bytes between the quotes of a time. -/
def timeBody (escDT : Bool) (c : BitVec 64) : Bytes :=
  if escDT then [47, 68, 97, 116, 101, 40] ++ decInt ((E.unixSec c * 1000).toInt) ++ [41, 47]
  else E.fmtTime c

mutual
/-- What the encoders write, as a description. -/
def data (st : Style) (escDT : Bool) : Val → JData
  | .nil => .null
  | .obj ku kvs => .obj (dataM st escDT ku kvs)
  | .arr xs => .arr (dataL st escDT xs)
  | .str s => .str (strText E st s)
  | .raw s => .str s
  | .float c => .num (E.fmtFloat (E.f32to64 (lo32 c)))
  | .double c => .num (E.fmtFloat c)
  | .tru => .tru
  | .fls => .fls
  | .int _ c => .num (decInt c.toInt)
  | .dateTime c => .str (timeBody E escDT c)
  | .null => .null
  | .bin _ _ => .null
  | .exbin _ _ => .null
  | .nan => .null
  | .inf => .null
def dataL (st : Style) (escDT : Bool) : List Val → List JData
  | [] => []
  | v :: vs => data st escDT v :: dataL st escDT vs
def dataM (st : Style) (escDT : Bool) (ku : Bool) : List (Bytes × Val) → List (Bytes × JData)
  | [] => []
  | (k, v) :: kvs => (keyText E st ku k, data st escDT v) :: dataM st escDT ku kvs
end

mutual
/-- Values whose texts are well formed: keys as written contain no quote, strings as written contain no
unescaped quote, floats are written as numbers (finite), no binaries, NAN, INF, no nil member. -/
def Enc (st : Style) (escDT : Bool) : Val → Prop
  | .nil => False
  | .obj ku kvs => EncM st escDT ku kvs
  | .arr xs => EncL st escDT xs
  | .str s => StrBody (strText E st s)
  | .raw s => StrBody s
  | .float c => NumLike (E.fmtFloat (E.f32to64 (lo32 c)))
  | .double c => NumLike (E.fmtFloat c)
  | .tru => True
  | .fls => True
  | .int _ _ => True
  | .dateTime c => StrBody (timeBody E escDT c)
  | .null => True
  | .bin _ _ => False
  | .exbin _ _ => False
  | .nan => False
  | .inf => False
def EncL (st : Style) (escDT : Bool) : List Val → Prop
  | [] => True
  | v :: vs => (v = .nil ∨ Enc st escDT v) ∧ EncL st escDT vs
def EncM (st : Style) (escDT : Bool) (ku : Bool) : List (Bytes × Val) → Prop
  | [] => True
  | (k, v) :: kvs => 34 ∉ keyText E st ku k ∧ Enc st escDT v ∧ EncM st escDT ku kvs
end

/-! ## Decimal integers are numbers -/

theorem digitsAux_digit : ∀ (f n : Nat), ∀ c ∈ digitsAux f n, (48 : UInt8) ≤ c ∧ c ≤ 57 := by
  intro f
  induction f with
  | zero => intro n c hc; simp [digitsAux] at hc
  | succ f ih =>
    intro n c hc
    have key : ∀ m : Nat, m < 10 → (48 : UInt8) ≤ byteN (48 + m) ∧ byteN (48 + m) ≤ 57 := by
      intro m hm
      rw [UInt8.le_iff_toNat_le, UInt8.le_iff_toNat_le, byteN_toNat]
      have e1 : (48 : UInt8).toNat = 48 := rfl
      have e2 : (57 : UInt8).toNat = 57 := rfl
      omega
    rw [digitsAux] at hc
    split at hc
    · rename_i h
      simp at hc; subst hc; exact key n h
    · simp at hc
      rcases hc with hc | rfl
      · exact ih _ c hc
      · exact key _ (by omega)

theorem digitsAux_ne (f n : Nat) : digitsAux (f + 1) n ≠ [] := by
  rw [digitsAux]; split <;> simp

theorem decInt_numLike (n : Int) : NumLike (decInt n) := by
  have hd : ∀ m : Nat, ∀ c ∈ decNat m, (48 : UInt8) ≤ c ∧ c ≤ 57 := fun m => digitsAux_digit _ m
  have hn : ∀ m : Nat, decNat m ≠ [] := fun m => digitsAux_ne m m
  unfold decInt
  split
  · refine ⟨by simp, ?_, ?_, by simp⟩
    · intro c hc
      simp at hc
      rcases hc with rfl | hc
      · right; right; left; rfl
      · exact .inl (hd _ c hc)
    · simpa using hn _
  · refine ⟨hn _, fun c hc => .inl (hd _ c hc), ?_, ?_⟩
    · intro h
      have := hd n.natAbs 45 (by rw [h]; simp)
      exact absurd this (by decide)
    · intro h
      have := hd n.natAbs 43 (by rw [h]; simp)
      exact absurd this (by decide)

theorem decInt_no_dot (n : Int) : 46 ∉ decInt n := by
  intro h
  have hd : ∀ m : Nat, ∀ c ∈ decNat m, (48 : UInt8) ≤ c ∧ c ≤ 57 := fun m => digitsAux_digit _ m
  unfold decInt at h
  split at h
  · simp at h; exact absurd (hd _ _ h) (by decide)
  · exact absurd (hd _ _ h) (by decide)

theorem timeText_eq (escDT : Bool) (c : BitVec 64) : timeText E escDT c = 34 :: timeBody E escDT c ++ [34] := by
  cases escDT <;> simp [timeText, timeBody]

theorem ws_nil : Ws [] := by intro c hc; simp at hc

theorem ws_append {a b : Bytes} (ha : Ws a) (hb : Ws b) : Ws (a ++ b) := by
  intro c hc
  rcases List.mem_append.1 hc with h | h
  · exact ha c h
  · exact hb c h

theorem ws_spaces (n : Nat) : Ws (spaces n) := by
  induction n with
  | zero => exact ws_nil
  | succ n ih =>
    rw [spaces]
    exact ws_append (by intro c hc; simp at hc; exact .inl hc) ih

theorem ws_crlf : Ws [13, 10] := by
  intro c hc
  simp at hc
  rcases hc with rfl | rfl
  · right; right; right; rfl
  · right; right; left; rfl

/-- Leading whitespace can be added to members and elements. -/
theorem textM_ws {w t : Bytes} {kvs : List (Bytes × JData)} (hw : Ws w) (h : TextM kvs t) :
    ∃ t', TextM kvs t' ∧ t' = w ++ t := by
  refine ⟨w ++ t, ?_, rfl⟩
  cases kvs with
  | nil => rw [TextM] at h; exact h.elim
  | cons kx kvs =>
    obtain ⟨k, x⟩ := kx
    rw [TextM] at h ⊢
    obtain ⟨w1, w2, w3, t, w4, hw1, hw2, hw3, hw4, ht, hk, h⟩ := h
    refine ⟨w ++ w1, w2, w3, t, w4, ws_append hw hw1, hw2, hw3, hw4, ht, hk, ?_⟩
    rcases h with ⟨hx, rfl⟩ | ⟨r', hr, rfl⟩
    · exact .inl ⟨hx, by simp⟩
    · exact .inr ⟨r', hr, by simp⟩

theorem textL_ws {w t : Bytes} {xs : List JData} (hw : Ws w) (h : TextL xs t) :
    ∃ t', TextL xs t' ∧ t' = w ++ t := by
  refine ⟨w ++ t, ?_, rfl⟩
  cases xs with
  | nil => rw [TextL] at h; exact h.elim
  | cons x xs =>
    rw [TextL] at h ⊢
    obtain ⟨w1, t, w2, hw1, hw2, ht, h⟩ := h
    refine ⟨w ++ w1, t, w2, ws_append hw hw1, hw2, ht, ?_⟩
    rcases h with ⟨hx, rfl⟩ | ⟨r', hr, rfl⟩
    · exact .inl ⟨hx, by simp⟩
    · exact .inr ⟨r', hr, by simp⟩

/-! ## Compact encoder -/

mutual
theorem toJson_text (st : Style) (escDT : Bool) : ∀ (v : Val), Enc E st escDT v → ∀ dst,
    ∃ t, Text (data E st escDT v) t ∧ toJson E st escDT v dst = .ok (dst ++ t)
  | .nil, h, _ => by rw [Enc] at h; exact h.elim
  | .obj ku kvs, h, dst => by
    rw [Enc] at h
    rw [data, toJson]
    cases kvs with
    | nil =>
      refine ⟨[123, 125], ?_, by simp [toJsonM]⟩
      rw [Text]; exact .inl ⟨by simp [dataM], [], ws_nil, rfl⟩
    | cons kv kvs =>
      obtain ⟨t, ht, he⟩ := toJsonM_text st escDT ku (kv :: kvs) h (by simp) 0 (dst ++ [123])
      refine ⟨123 :: t, ?_, ?_⟩
      · rw [Text]; right; exact ⟨t, ht, rfl⟩
      · refine he.trans ?_; simp
  | .arr xs, h, dst => by
    rw [Enc] at h
    rw [data, toJson]
    cases xs with
    | nil =>
      refine ⟨[91, 93], ?_, by simp [toJsonL]⟩
      rw [Text]; exact .inl ⟨by simp [dataL], [], ws_nil, rfl⟩
    | cons x xs =>
      obtain ⟨t, ht, he⟩ := toJsonL_text st escDT (x :: xs) h (by simp) 0 (dst ++ [91])
      refine ⟨91 :: t, ?_, ?_⟩
      · rw [Text]; right; exact ⟨t, ht, rfl⟩
      · refine he.trans ?_; simp
  | .str s, h, dst => ⟨34 :: strText E st s ++ [34], by rw [Enc] at h; rw [data, Text]; exact ⟨h, rfl⟩,
      by rw [toJson]; simp⟩
  | .raw s, h, dst => ⟨34 :: s ++ [34], by rw [Enc] at h; rw [data, Text]; exact ⟨h, rfl⟩, by rw [toJson]; simp⟩
  | .float c, h, dst => ⟨_, by rw [Enc] at h; rw [data, Text]; exact ⟨h, rfl⟩, by rw [toJson]⟩
  | .double c, h, dst => ⟨_, by rw [Enc] at h; rw [data, Text]; exact ⟨h, rfl⟩, by rw [toJson]⟩
  | .tru, _, dst => ⟨_, by rw [data, Text], by rw [toJson]⟩
  | .fls, _, dst => ⟨_, by rw [data, Text], by rw [toJson]⟩
  | .int _ c, _, dst => ⟨_, by rw [data, Text]; exact ⟨decInt_numLike _, rfl⟩, by rw [toJson]⟩
  | .dateTime c, h, dst => ⟨_, by rw [Enc] at h; rw [data, Text]; exact ⟨h, rfl⟩, by rw [toJson, timeText_eq]⟩
  | .null, _, dst => ⟨_, by rw [data, Text], by rw [toJson]⟩
  | .bin _ _, h, _ => by rw [Enc] at h; exact h.elim
  | .exbin _ _, h, _ => by rw [Enc] at h; exact h.elim
  | .nan, h, _ => by rw [Enc] at h; exact h.elim
  | .inf, h, _ => by rw [Enc] at h; exact h.elim
/-- Members, with the closing brace. -/
theorem toJsonM_text (st : Style) (escDT : Bool) (ku : Bool) : ∀ (kvs : List (Bytes × Val)),
    EncM E st escDT ku kvs → kvs ≠ [] → ∀ (i : Nat) dst,
    ∃ t, TextM (dataM E st escDT ku kvs) t ∧
      (toJsonM E st escDT ku kvs i dst >>= fun d => .ok (d ++ [125])) =
        .ok ((if i ≠ 0 then dst ++ [44] else dst) ++ t)
  | [], _, hne, _, _ => absurd rfl hne
  | (k, v) :: kvs, h, _, i, dst => by
    rw [EncM] at h
    obtain ⟨hk, hv, hm⟩ := h
    rw [toJsonM, dataM]
    obtain ⟨t, ht, he⟩ := toJson_text st escDT v hv
      ((if i ≠ 0 then dst ++ [44, 34] else dst ++ [34]) ++ keyText E st ku k ++ [34, 58])
    rw [he, Res.bind_ok]
    cases kvs with
    | nil =>
      refine ⟨34 :: (keyText E st ku k ++ 34 :: 58 :: (t ++ [125])), ?_, ?_⟩
      · rw [TextM]
        exact ⟨[], [], [], t, [], ws_nil, ws_nil, ws_nil, ws_nil, ht, hk, .inl ⟨by simp [dataM], by simp⟩⟩
      · rw [toJsonM]; split <;> simp
    | cons kv kvs =>
      obtain ⟨t2, ht2, he2⟩ := toJsonM_text st escDT ku (kv :: kvs) hm (by simp) (i + 1)
        ((if i ≠ 0 then dst ++ [44, 34] else dst ++ [34]) ++ keyText E st ku k ++ [34, 58] ++ t)
      refine ⟨34 :: (keyText E st ku k ++ 34 :: 58 :: (t ++ 44 :: t2)), ?_, ?_⟩
      · rw [TextM]
        exact ⟨[], [], [], t, [], ws_nil, ws_nil, ws_nil, ws_nil, ht, hk, .inr ⟨t2, ht2, by simp⟩⟩
      · rw [he2]
        by_cases hi : i = 0 <;> simp [hi]
/-- Elements, with the closing bracket. -/
theorem toJsonL_text (st : Style) (escDT : Bool) : ∀ (xs : List Val),
    EncL E st escDT xs → xs ≠ [] → ∀ (i : Nat) dst,
    ∃ t, TextL (dataL E st escDT xs) t ∧
      (toJsonL E st escDT xs i dst >>= fun d => .ok (d ++ [93])) =
        .ok ((if i ≠ 0 then dst ++ [44] else dst) ++ t)
  | [], _, hne, _, _ => absurd rfl hne
  | v :: xs, h, _, i, dst => by
    rw [EncL] at h
    obtain ⟨hv, hm⟩ := h
    rw [dataL]
    have key : ∃ t, Text (data E st escDT v) t ∧
        toJsonL E st escDT (v :: xs) i dst =
          toJsonL E st escDT xs (i + 1) ((if i ≠ 0 then dst ++ [44] else dst) ++ t) := by
      rcases hv with rfl | hv
      · exact ⟨[110, 117, 108, 108], by rw [data, Text], by rw [toJsonL]; rfl⟩
      · obtain ⟨t, ht, he⟩ := toJson_text st escDT v hv (if i ≠ 0 then dst ++ [44] else dst)
        refine ⟨t, ht, ?_⟩
        have hnil : v = .nil → False := by rintro rfl; rw [Enc] at hv; exact hv
        rw [toJsonL]
        · rw [he]; rfl
        · exact hnil
    obtain ⟨t, ht, he⟩ := key
    rw [he]
    cases xs with
    | nil =>
      refine ⟨t ++ [93], ?_, ?_⟩
      · rw [TextL]
        exact ⟨[], t, [], ws_nil, ws_nil, ht, .inl ⟨by simp [dataL], by simp⟩⟩
      · rw [toJsonL]; simp
    | cons x xs =>
      obtain ⟨t2, ht2, he2⟩ := toJsonL_text st escDT (x :: xs) hm (by simp) (i + 1)
        ((if i ≠ 0 then dst ++ [44] else dst) ++ t)
      refine ⟨t ++ 44 :: t2, ?_, ?_⟩
      · rw [TextL]
        exact ⟨[], t, [], ws_nil, ws_nil, ht, .inr ⟨t2, ht2, by simp⟩⟩
      · rw [he2]; simp
end

/-! ## Formatted encoder -/

mutual
theorem format_text (st : Style) (escDT : Bool) : ∀ (v : Val), Enc E st escDT v → ∀ (level : Nat) dst,
    ∃ t, Text (data E st escDT v) t ∧ format E st escDT v level dst = .ok (dst ++ t)
  | .nil, h, _, _ => by rw [Enc] at h; exact h.elim
  | .obj ku kvs, h, level, dst => by
    rw [Enc] at h
    rw [data, format]
    cases kvs with
    | nil =>
      refine ⟨123 :: ([13, 10] ++ ([13, 10] ++ spaces level)) ++ [125], ?_, by simp [formatM]⟩
      rw [Text]
      exact .inl ⟨by simp [dataM], _, ws_append ws_crlf (ws_append ws_crlf (ws_spaces level)), rfl⟩
    | cons kv kvs =>
      obtain ⟨t, ht, he⟩ := formatM_text st escDT ku (kv :: kvs) h (by simp) 0 level (dst ++ [123, 13, 10])
      obtain ⟨t', ht', e⟩ := textM_ws ws_crlf ht
      refine ⟨123 :: t', ?_, ?_⟩
      · rw [Text]; right; exact ⟨t', ht', rfl⟩
      · refine he.trans ?_; simp [e]
  | .arr xs, h, level, dst => by
    rw [Enc] at h
    rw [data, format]
    cases xs with
    | nil =>
      refine ⟨91 :: ([13, 10] ++ ([13, 10] ++ spaces level)) ++ [93], ?_, by simp [formatL]⟩
      rw [Text]
      exact .inl ⟨by simp [dataL], _, ws_append ws_crlf (ws_append ws_crlf (ws_spaces level)), rfl⟩
    | cons x xs =>
      obtain ⟨t, ht, he⟩ := formatL_text st escDT (x :: xs) h (by simp) 0 level (dst ++ [91, 13, 10])
      obtain ⟨t', ht', e⟩ := textL_ws ws_crlf ht
      refine ⟨91 :: t', ?_, ?_⟩
      · rw [Text]; right; exact ⟨t', ht', rfl⟩
      · refine he.trans ?_; simp [e]
  | .str s, h, _, dst => ⟨34 :: strText E st s ++ [34], by rw [Enc] at h; rw [data, Text]; exact ⟨h, rfl⟩,
      by rw [format]; simp⟩
  | .raw s, h, _, dst => ⟨34 :: s ++ [34], by rw [Enc] at h; rw [data, Text]; exact ⟨h, rfl⟩, by rw [format]; simp⟩
  | .float c, h, _, dst => ⟨_, by rw [Enc] at h; rw [data, Text]; exact ⟨h, rfl⟩, by rw [format]⟩
  | .double c, h, _, dst => ⟨_, by rw [Enc] at h; rw [data, Text]; exact ⟨h, rfl⟩, by rw [format]⟩
  | .tru, _, _, dst => ⟨_, by rw [data, Text], by rw [format]⟩
  | .fls, _, _, dst => ⟨_, by rw [data, Text], by rw [format]⟩
  | .int _ c, _, _, dst => ⟨_, by rw [data, Text]; exact ⟨decInt_numLike _, rfl⟩, by rw [format]⟩
  | .dateTime c, h, _, dst => ⟨_, by rw [Enc] at h; rw [data, Text]; exact ⟨h, rfl⟩, by rw [format, timeText_eq]⟩
  | .null, _, _, dst => ⟨_, by rw [data, Text], by rw [format]⟩
  | .bin _ _, h, _, _ => by rw [Enc] at h; exact h.elim
  | .exbin _ _, h, _, _ => by rw [Enc] at h; exact h.elim
  | .nan, h, _, _ => by rw [Enc] at h; exact h.elim
  | .inf, h, _, _ => by rw [Enc] at h; exact h.elim
/-- Members, with the closing brace. -/
theorem formatM_text (st : Style) (escDT : Bool) (ku : Bool) : ∀ (kvs : List (Bytes × Val)),
    EncM E st escDT ku kvs → kvs ≠ [] → ∀ (i level : Nat) dst,
    ∃ t, TextM (dataM E st escDT ku kvs) t ∧
      (formatM E st escDT ku kvs i level dst >>= fun d => .ok (d ++ [13, 10] ++ spaces level ++ [125])) =
        .ok ((if i ≠ 0 then dst ++ [44] else dst) ++ t)
  | [], _, hne, _, _, _ => absurd rfl hne
  | (k, v) :: kvs, h, _, i, level, dst => by
    rw [EncM] at h
    obtain ⟨hk, hv, hm⟩ := h
    rw [formatM, dataM]
    obtain ⟨t, ht, he⟩ := format_text st escDT v hv (level + 1)
      ((if i ≠ 0 then dst ++ [44, 13, 10] else dst) ++ spaces (level + 1) ++ [34] ++ keyText E st ku k ++ [34, 58])
    rw [he, Res.bind_ok]
    have hw1 : Ws ((if i ≠ 0 then [13, 10] else []) ++ spaces (level + 1)) := by
      refine ws_append ?_ (ws_spaces _)
      split
      · exact ws_crlf
      · exact ws_nil
    cases kvs with
    | nil =>
      refine ⟨((if i ≠ 0 then [13, 10] else []) ++ spaces (level + 1)) ++ 34 :: (keyText E st ku k ++ 34 :: ([] ++ 58 :: ([] ++ (t ++ (([13, 10] ++ spaces level) ++ [125]))))), ?_, ?_⟩
      · rw [TextM]
        exact ⟨_, [], [], t, [13, 10] ++ spaces level, hw1, ws_nil, ws_nil,
          ws_append ws_crlf (ws_spaces _), ht, hk, .inl ⟨by simp [dataM], rfl⟩⟩
      · rw [formatM]; by_cases hi : i = 0 <;> simp [hi]
    | cons kv kvs =>
      obtain ⟨t2, ht2, he2⟩ := formatM_text st escDT ku (kv :: kvs) hm (by simp) (i + 1) level
        ((if i ≠ 0 then dst ++ [44, 13, 10] else dst) ++ spaces (level + 1) ++ [34] ++ keyText E st ku k ++
          [34, 58] ++ t)
      refine ⟨((if i ≠ 0 then [13, 10] else []) ++ spaces (level + 1)) ++ 34 :: (keyText E st ku k ++ 34 :: ([] ++ 58 :: ([] ++ (t ++ ([] ++ 44 :: t2))))), ?_, ?_⟩
      · rw [TextM]
        exact ⟨_, [], [], t, [], hw1, ws_nil, ws_nil, ws_nil, ht, hk, .inr ⟨t2, ht2, rfl⟩⟩
      · rw [he2]
        by_cases hi : i = 0 <;> simp [hi]
/-- Elements, with the closing bracket. -/
theorem formatL_text (st : Style) (escDT : Bool) : ∀ (xs : List Val),
    EncL E st escDT xs → xs ≠ [] → ∀ (i level : Nat) dst,
    ∃ t, TextL (dataL E st escDT xs) t ∧
      (formatL E st escDT xs i level dst >>= fun d => .ok (d ++ [13, 10] ++ spaces level ++ [93])) =
        .ok ((if i ≠ 0 then dst ++ [44] else dst) ++ t)
  | [], _, hne, _, _, _ => absurd rfl hne
  | v :: xs, h, _, i, level, dst => by
    rw [EncL] at h
    obtain ⟨hv, hm⟩ := h
    rw [dataL]
    have key : ∃ t, Text (data E st escDT v) t ∧
        formatL E st escDT (v :: xs) i level dst =
          formatL E st escDT xs (i + 1) level
            ((if i ≠ 0 then dst ++ [44, 13, 10] else dst) ++ spaces (level + 1) ++ t) := by
      rcases hv with rfl | hv
      · exact ⟨[110, 117, 108, 108], by rw [data, Text], by rw [formatL]; rfl⟩
      · obtain ⟨t, ht, he⟩ := format_text st escDT v hv (level + 1)
          ((if i ≠ 0 then dst ++ [44, 13, 10] else dst) ++ spaces (level + 1))
        refine ⟨t, ht, ?_⟩
        have hnil : v = .nil → False := by rintro rfl; rw [Enc] at hv; exact hv
        rw [formatL]
        · rw [he]; rfl
        · exact hnil
    obtain ⟨t, ht, he⟩ := key
    rw [he]
    have hw1 : Ws ((if i ≠ 0 then [13, 10] else []) ++ spaces (level + 1)) := by
      refine ws_append ?_ (ws_spaces _)
      split
      · exact ws_crlf
      · exact ws_nil
    cases xs with
    | nil =>
      refine ⟨((if i ≠ 0 then [13, 10] else []) ++ spaces (level + 1)) ++ (t ++ (([13, 10] ++ spaces level) ++ [93])), ?_, ?_⟩
      · rw [TextL]
        exact ⟨_, t, [13, 10] ++ spaces level, hw1, ws_append ws_crlf (ws_spaces _), ht,
          .inl ⟨by simp [dataL], rfl⟩⟩
      · rw [formatL]; by_cases hi : i = 0 <;> simp [hi]
    | cons x xs =>
      obtain ⟨t2, ht2, he2⟩ := formatL_text st escDT (x :: xs) hm (by simp) (i + 1) level
        ((if i ≠ 0 then dst ++ [44, 13, 10] else dst) ++ spaces (level + 1) ++ t)
      refine ⟨((if i ≠ 0 then [13, 10] else []) ++ spaces (level + 1)) ++ (t ++ ([] ++ 44 :: t2)), ?_, ?_⟩
      · rw [TextL]
        exact ⟨_, t, [], hw1, ws_nil, ht, .inr ⟨t2, ht2, rfl⟩⟩
      · rw [he2]
        by_cases hi : i = 0 <;> simp [hi]
end

/-! ## Append-only -/

/-- Result `r` for an empty buffer, result for buffer `dst`. -/
def Appends (f : Bytes → Res Bytes) : Prop :=
  ∀ dst, f dst = (f [] >>= fun t => .ok (dst ++ t))

theorem appends_pure (t : Bytes) : Appends (fun dst => .ok (dst ++ t)) := by
  intro dst; simp

theorem Appends.comp {f g : Bytes → Res Bytes} (hf : Appends f) (hg : Appends g) :
    Appends (fun dst => f dst >>= g) := by
  intro dst
  dsimp only
  rw [hf dst]
  cases h : f [] with
  | ok t =>
    simp only [Res.bind_ok]
    rw [hg (dst ++ t), hg t]
    cases g [] <;> simp
  | err e => rfl
  | panic => rfl
  | loop => rfl

theorem Appends.shift {f : Bytes → Res Bytes} (hf : Appends f) (t : Bytes) : Appends (fun dst => f (dst ++ t)) := by
  have := (appends_pure t).comp hf
  simpa using this

mutual
theorem toJson_appends (st : Style) (escDT : Bool) : ∀ v : Val, Appends (toJson E st escDT v)
  | .nil => by intro dst; rw [toJson]; rfl
  | .obj ku kvs => by
    have h := ((toJsonM_appends st escDT ku kvs 0).shift [123]).comp (appends_pure [125])
    intro dst; rw [toJson, toJson]; exact h dst
  | .arr xs => by
    have h := ((toJsonL_appends st escDT xs 0).shift [91]).comp (appends_pure [93])
    intro dst; rw [toJson, toJson]; exact h dst
  | .str s => by intro dst; rw [toJson, toJson]; simp
  | .raw s => by intro dst; rw [toJson, toJson]; simp
  | .float c => by intro dst; rw [toJson, toJson]; simp
  | .double c => by intro dst; rw [toJson, toJson]; simp
  | .tru => by intro dst; rw [toJson, toJson]; simp
  | .fls => by intro dst; rw [toJson, toJson]; simp
  | .int _ c => by intro dst; rw [toJson, toJson]; simp
  | .dateTime c => by intro dst; rw [toJson, toJson]; simp
  | .null => by intro dst; rw [toJson, toJson]; simp
  | .bin _ _ => by intro dst; rw [toJson, toJson]; simp
  | .exbin _ _ => by intro dst; rw [toJson, toJson]; simp
  | .nan => by intro dst; rw [toJson, toJson]; simp
  | .inf => by intro dst; rw [toJson, toJson]; simp
theorem toJsonM_appends (st : Style) (escDT : Bool) (ku : Bool) : ∀ (kvs : List (Bytes × Val)) (i : Nat),
    Appends (toJsonM E st escDT ku kvs i)
  | [], i => by intro dst; rw [toJsonM, toJsonM]; simp
  | (k, v) :: kvs, i => by
    have h := ((toJson_appends st escDT v).shift
      ((if i ≠ 0 then [44, 34] else [34]) ++ keyText E st ku k ++ [34, 58])).comp
      (toJsonM_appends st escDT ku kvs (i + 1))
    intro dst
    rw [toJsonM, toJsonM]
    have := h dst
    by_cases hi : i = 0 <;> simpa [hi] using this
theorem toJsonL_appends (st : Style) (escDT : Bool) : ∀ (xs : List Val) (i : Nat),
    Appends (toJsonL E st escDT xs i)
  | [], i => by intro dst; rw [toJsonL, toJsonL]; simp
  | v :: xs, i => by
    have h := ((toJson_appends st escDT v).shift (if i ≠ 0 then [44] else [])).comp
      (toJsonL_appends st escDT xs (i + 1))
    have h2 := ((appends_pure [110, 117, 108, 108]).shift (if i ≠ 0 then [44] else [])).comp
      (toJsonL_appends st escDT xs (i + 1))
    intro dst
    by_cases hv : v = .nil
    · subst hv
      rw [toJsonL, toJsonL]
      have := h2 dst
      by_cases hi : i = 0 <;> simpa [hi] using this
    · rw [toJsonL, toJsonL]
      · have := h dst
        by_cases hi : i = 0 <;> simpa [hi] using this
      · exact hv
      · exact hv
end

mutual
theorem format_appends (st : Style) (escDT : Bool) : ∀ (v : Val) (level : Nat), Appends (format E st escDT v level)
  | .nil, _ => by intro dst; rw [format]; rfl
  | .obj ku kvs, level => by
    have h := ((formatM_appends st escDT ku kvs 0 level).shift [123, 13, 10]).comp
      (appends_pure ([13, 10] ++ spaces level ++ [125]))
    intro dst; rw [format, format]
    have := h dst
    simpa using this
  | .arr xs, level => by
    have h := ((formatL_appends st escDT xs 0 level).shift [91, 13, 10]).comp
      (appends_pure ([13, 10] ++ spaces level ++ [93]))
    intro dst; rw [format, format]
    have := h dst
    simpa using this
  | .bin ext b, _ => by
    intro dst; rw [format, format]
    cases binText E ext b <;> simp
  | .str s, _ => by intro dst; rw [format, format]; simp
  | .raw s, _ => by intro dst; rw [format, format]; simp
  | .float c, _ => by intro dst; rw [format, format]; simp
  | .double c, _ => by intro dst; rw [format, format]; simp
  | .tru, _ => by intro dst; rw [format, format]; simp
  | .fls, _ => by intro dst; rw [format, format]; simp
  | .int _ c, _ => by intro dst; rw [format, format]; simp
  | .dateTime c, _ => by intro dst; rw [format, format]; simp
  | .null, _ => by intro dst; rw [format, format]; simp
  | .exbin _ _, _ => by intro dst; rw [format, format]; simp
  | .nan, _ => by intro dst; rw [format, format]; simp
  | .inf, _ => by intro dst; rw [format, format]; simp
theorem formatM_appends (st : Style) (escDT : Bool) (ku : Bool) : ∀ (kvs : List (Bytes × Val)) (i level : Nat),
    Appends (formatM E st escDT ku kvs i level)
  | [], i, _ => by intro dst; rw [formatM, formatM]; simp
  | (k, v) :: kvs, i, level => by
    have h := ((format_appends st escDT v (level + 1)).shift
      ((if i ≠ 0 then [44, 13, 10] else []) ++ spaces (level + 1) ++ [34] ++ keyText E st ku k ++ [34, 58])).comp
      (formatM_appends st escDT ku kvs (i + 1) level)
    intro dst
    rw [formatM, formatM]
    have := h dst
    by_cases hi : i = 0 <;> simpa [hi] using this
theorem formatL_appends (st : Style) (escDT : Bool) : ∀ (xs : List Val) (i level : Nat),
    Appends (formatL E st escDT xs i level)
  | [], i, _ => by intro dst; rw [formatL, formatL]; simp
  | v :: xs, i, level => by
    have h := ((format_appends st escDT v (level + 1)).shift
      ((if i ≠ 0 then [44, 13, 10] else []) ++ spaces (level + 1))).comp
      (formatL_appends st escDT xs (i + 1) level)
    have h2 := ((appends_pure [110, 117, 108, 108]).shift
      ((if i ≠ 0 then [44, 13, 10] else []) ++ spaces (level + 1))).comp
      (formatL_appends st escDT xs (i + 1) level)
    intro dst
    by_cases hv : v = .nil
    · subst hv
      rw [formatL, formatL]
      have := h2 dst
      by_cases hi : i = 0 <;> simpa [hi] using this
    · rw [formatL, formatL]
      · have := h dst
        by_cases hi : i = 0 <;> simpa [hi] using this
      · exact hv
      · exact hv
end

end Dxs.Json
