import Verif.Props.MsgPack
import Verif.Props.Bson
import Verif.Props.Json
import Verif.EnvEx

/-! # C132: writing what was read from what was written gives the same bytes

`ToMsgPack`, `ToBson` and `ToJson` (msgpackparse.go:511-583, bson_parse.go:273-421, jsonparse.go:646-729) after `NewValueFromMsgPack`, `NewValueFromBson`, `NewValueFromJson` of their own output. The round
trips (C03, C13, C19) allow some differences between the value and what comes back (raw strings, extra bytes, names, times); none of them shows in the bytes. -/

namespace Dxs

mutual
/-- All times in the value have the property. -/
def Times (P : BitVec 64 → Prop) : Val → Prop
  | .dateTime c => P c
  | .arr xs => TimesL P xs
  | .obj _ kvs => TimesM P kvs
  | _ => True
/-- The elements. -/
def TimesL (P : BitVec 64 → Prop) : List Val → Prop
  | [] => True
  | v :: vs => Times P v ∧ TimesL P vs
/-- The members. -/
def TimesM (P : BitVec 64 → Prop) : List (Bytes × Val) → Prop
  | [] => True
  | (_, v) :: kvs => Times P v ∧ TimesM P kvs
end

/-! ## MessagePack -/

namespace MsgPack

/-- The time that went through seconds and nanoseconds still has these seconds and nanoseconds (a `DateTime` of DxCommonLib is a number of days as a float64: not every one need be like this). -/
def Steady (E : Env) (c : BitVec 64) : Prop := E.unixSec (E.ofUnix (E.unixSec c) (E.unixNano c).val) = E.unixSec c ∧ E.unixNano (E.ofUnix (E.unixSec c) (E.unixNano c).val) = E.unixNano c

variable {E : Env}

mutual
theorem enc_same : ∀ (v w : Val), Times (Steady E) v → Same E v w → ∀ dst, enc E w dst = enc E v dst
  | .nil, w, T, h, dst | .null, w, T, h, dst | .tru, w, T, h, dst | .fls, w, T, h, dst | .int _ _, w, T, h, dst | .double _, w, T, h, dst | .str _, w, T, h, dst | .raw _, w, T, h, dst | .bin _ _, w, T, h, dst
  | .exbin _ _, w, T, h, dst => by
    rw [Same] at h; subst h; rfl
  | .float c, w, T, h, dst => by
    rw [Same] at h
    obtain ⟨c', rfl, hc⟩ := h
    rw [enc, enc, hc]
  | .dateTime c, w, T, h, dst => by
    rw [Same] at h; subst h
    rw [enc, enc, writeTime, writeTime, T.1, T.2]
  | .arr xs, w, T, h, dst => by
    rw [Same] at h
    obtain ⟨ys, rfl, h⟩ := h
    obtain ⟨hl, he⟩ := encElems_same xs ys T h
    rw [enc, enc, hl, he]
  | .obj ku kvs, w, T, h, dst => by
    rw [Same] at h
    obtain ⟨ku', ys, rfl, h⟩ := h
    obtain ⟨hl, he⟩ := encMembers_same kvs ys T h
    rw [enc, enc, hl, he]
  | .nan, w, T, h, _ | .inf, w, T, h, _ => by rw [Same] at h; exact h.elim
theorem encElems_same : ∀ (vs ws : List Val), TimesL (Steady E) vs → SameL E vs ws → ws.length = vs.length ∧ ∀ dst, encElems E ws dst = encElems E vs dst
  | [], ws, _, h => by rw [SameL] at h; subst h; exact ⟨rfl, fun _ => rfl⟩
  | v :: vs, ws, T, h => by
    rw [SameL] at h
    obtain ⟨w, ws, rfl, h1, h2⟩ := h
    obtain ⟨hl, he⟩ := encElems_same vs ws T.2 h2
    exact ⟨by simp [hl], fun dst => by rw [encElems, encElems, enc_same v w T.1 h1, he]⟩
theorem encMembers_same : ∀ (vs ws : List (Bytes × Val)), TimesM (Steady E) vs → SameM E vs ws → ws.length = vs.length ∧ ∀ dst, encMembers E ws dst = encMembers E vs dst
  | [], ws, _, h => by rw [SameM] at h; subst h; exact ⟨rfl, fun _ => rfl⟩
  | (k, v) :: vs, ws, T, h => by
    rw [SameM] at h
    obtain ⟨w, ws, rfl, h1, h2⟩ := h
    obtain ⟨hl, he⟩ := encMembers_same vs ws T.2 h2
    exact ⟨by simp [hl], fun dst => by rw [encMembers, encMembers, enc_same v w T.1 h1, he]⟩
end

/-- **C132** for MessagePack. -/
theorem C132_msgpack (E : Env) (v : Val) (T : Times (Steady E) v) (h : Supported v) (hk : DistinctKeys E v) :
    ∃ w, newValueFromMsgPack E (value2MsgPack E v) = .ok w ∧ value2MsgPack E w = value2MsgPack E v := by
  obtain ⟨w, hw, e⟩ := C03_roundtrip E v [] h hk
  rw [List.append_nil] at e
  refine ⟨w, by unfold newValueFromMsgPack; rw [e]; rfl, enc_same v w T hw []⟩

end MsgPack

/-! ## BSON -/

namespace Bson
open Spec

/-- The time that went through milliseconds still has these milliseconds. -/
def Steady (E : Env) (c : BitVec 64) : Prop := E.unixMilli (E.ofMilli (E.unixMilli c)) = E.unixMilli c

variable {E : Env}

mutual
theorem data_same : ∀ (v w : Val), Times (Steady E) v → Survives E v → Same E v w → data E w = data E v ∧ Writable w
  | .nil, w, T, s, h | .null, w, T, s, h | .tru, w, T, s, h | .fls, w, T, s, h | .double _, w, T, s, h | .str _, w, T, s, h | .raw _, w, T, s, h => by
    have h : w = _ := h
    subst h; exact ⟨rfl, trivial⟩
  | .int ext c, w, T, s, h => by
    have h : w = _ := h
    subst h
    refine ⟨?_, trivial⟩
    by_cases he : ext = 17
    · subst he; rfl
    · simp only [data, he, if_false]; rfl
  | .dateTime c, w, T, s, h => by
    have h : w = _ := h
    subst h
    exact ⟨by rw [data, data, T], trivial⟩
  | .bin ext b, w, T, s, h => by
    have h : w = _ := h
    subst h
    exact ⟨rfl, survives_writable E _ s⟩
  | .arr xs, w, T, s, h => by
    obtain ⟨ys, rfl, h⟩ := h
    obtain ⟨h1, h2⟩ := dataL_same xs ys T s.2 h
    exact ⟨by rw [data, data, h1], h2⟩
  | .obj ku kvs, w, T, s, h => by
    obtain ⟨ys, rfl, h⟩ := h
    obtain ⟨h1, h2⟩ := dataM_same ku kvs ys T s.2.2 h
    exact ⟨by rw [data, data, h1], h2⟩
  | .float _, _, _, s, _ | .exbin _ _, _, _, s, _ | .nan, _, _, s, _ | .inf, _, _, s, _ => s.elim
theorem dataL_same : ∀ (vs ws : List Val), TimesL (Steady E) vs → SurvivesL E vs → SameL E vs ws → dataL E ws = dataL E vs ∧ WritableL ws
  | [], ws, _, _, h => by rw [SameL] at h; subst h; exact ⟨rfl, trivial⟩
  | v :: vs, ws, T, s, h => by
    obtain ⟨w, ws, rfl, h1, h2⟩ := h
    obtain ⟨a1, a2⟩ := data_same v w T.1 s.1 h1
    obtain ⟨b1, b2⟩ := dataL_same vs ws T.2 s.2 h2
    exact ⟨by rw [dataL, dataL, a1, b1], a2, b2⟩
theorem dataM_same (ku : Bool) : ∀ (vs ws : List (Bytes × Val)), TimesM (Steady E) vs → SurvivesM E ku vs → SameM E ku vs ws → dataM E true ws = dataM E ku vs ∧ WritableM ws
  | [], ws, _, _, h => by rw [SameM] at h; subst h; exact ⟨rfl, trivial⟩
  | (k, v) :: vs, ws, T, s, h => by
    obtain ⟨w, ws, rfl, h1, h2⟩ := h
    obtain ⟨a1, a2⟩ := data_same v w T.1 s.2.1 h1
    obtain ⟨b1, b2⟩ := dataM_same ku vs ws T.2 s.2.2 h2
    exact ⟨by rw [dataM, dataM, a1, b1]; rfl, a2, b2⟩
end

/-- **C132** for BSON. -/
theorem C132_bson (E : Env) (hE : IndexLaw E) (hid : Bytes) (ku : Bool) (kvs : List (Bytes × Val)) (T : Times (Steady E) (.obj ku kvs)) (h : Survives E (.obj ku kvs))
    (hl : (document (dataM E ku kvs)).length < 2 ^ 31) :
    ∃ bs w, value2Bson E (.obj ku kvs) [] = .ok bs ∧ newValueFromBson E hid bs = .ok w ∧ value2Bson E w [] = .ok bs := by
  obtain ⟨bs, w, e, er, hw⟩ := C13_roundtrip_partial E hE hid [] ku kvs h hl
  rw [List.append_nil] at er
  obtain ⟨ys, rfl, hs⟩ := hw
  obtain ⟨h1, h2⟩ := dataM_same ku kvs ys T h.2.2 hs
  refine ⟨bs, _, e, er, ?_⟩
  rw [C12_document E _ _ _ h2, h1, ← e, C12_document E _ _ _ (survives_writable E _ h)]

end Bson

/-! ## JSON -/

namespace Json
open Spec

/-- A number text that is written again as it is read. -/
def NumFirm (E : Env) (t : Bytes) : Prop := toJson E .onlyAnsi false (denote E (.num t)) [] = .ok t

mutual
/-- The floats and times of the value are written as texts that are read back to what is written the same. (Integers, strings, names need no condition.) -/
def Firm (E : Env) (escDT : Bool) : Val → Prop
  | .float c => NumFirm E (E.fmtFloat (E.f32to64 (lo32 c)))
  | .double c => NumFirm E (E.fmtFloat c)
  | .dateTime c => ∀ d, E.jsonTime (timeBody E escDT c) = some d → timeBody E escDT d = timeBody E escDT c
  | .arr xs => FirmL E escDT xs
  | .obj _ kvs => FirmM E escDT kvs
  | _ => True
/-- The elements. -/
def FirmL (E : Env) (escDT : Bool) : List Val → Prop
  | [] => True
  | v :: vs => Firm E escDT v ∧ FirmL E escDT vs
/-- The members. -/
def FirmM (E : Env) (escDT : Bool) : List (Bytes × Val) → Prop
  | [] => True
  | (_, v) :: kvs => Firm E escDT v ∧ FirmM E escDT kvs
end

variable {E : Env}

theorem timeText_body (escDT : Bool) (c : BitVec 64) : timeText E escDT c = [34] ++ timeBody E escDT c ++ [34] := by
  cases escDT <;> simp [timeText, timeBody]

theorem num_again {t : Bytes} (h : NumFirm E t) (st : Style) (escDT : Bool) (dst : Bytes) : toJson E st escDT (denote E (.num t)) dst = .ok (dst ++ t) := by
  unfold NumFirm at h
  unfold denote at h ⊢
  split at h <;> rename_i hd
  · rw [if_pos hd]
    simp only [Val.ofF32, toJson, List.nil_append, Res.ok.injEq] at h ⊢
    rw [h]
  · rw [if_neg hd]
    simp only [toJson, List.nil_append, Res.ok.injEq] at h ⊢
    rw [h]

theorem data_nil {a escDT : Bool} : denote E (data E (styleOf a) escDT .nil) = .null := rfl

theorem denote_ne_nil (d : JData) : denote E d ≠ .nil := by
  cases d <;> rw [denote] <;> try simp
  · split <;> simp
  · split <;> simp [Val.ofF32]

mutual
theorem toJson_again (I : IntLaw E) (a escDT : Bool) : ∀ v, Plain E a escDT v → Firm E escDT v → ∀ dst,
    toJson E (styleOf a) escDT (denote E (data E (styleOf a) escDT v)) dst = toJson E (styleOf a) escDT v dst
  | .nil, h, _, _ => by rw [Plain] at h; exact h.elim
  | .obj ku kvs, h, hf, dst => by
    rw [Plain] at h; rw [Firm] at hf
    rw [data, denote, toJson, toJson, toJsonM_again I a escDT ku kvs h hf]
  | .arr xs, h, hf, dst => by
    rw [Plain] at h; rw [Firm] at hf
    rw [data, denote, toJson, toJson, toJsonL_again I a escDT xs h hf]
  | .str s, h, _, dst => by
    rw [Plain] at h
    rw [data, denote, strText_styleOf, h, toJson, toJson, strText_styleOf]
  | .raw s, h, _, dst => by
    rw [Plain] at h
    rw [data, denote, h.2]
  | .float c, _, hf, dst => by
    rw [Firm] at hf
    rw [data, num_again hf, toJson]
  | .double c, _, hf, dst => by
    rw [Firm] at hf
    rw [data, num_again hf, toJson]
  | .int _ c, _, _, dst => by rw [data, denote, if_neg (decInt_no_dot _), I c, toJson, toJson]; rfl
  | .dateTime c, _, hf, dst => by
    rw [Firm] at hf
    rw [data, denote]
    cases ht : E.jsonTime (timeBody E escDT c) with
    | none => simp only [toJson, timeText_body]; simp
    | some d => simp only [toJson, timeText_body, hf d ht]
  | .null, _, _, _ | .tru, _, _, _ | .fls, _, _, _ => rfl
  | .bin _ _, h, _, _ | .exbin _ _, h, _, _ | .nan, h, _, _ | .inf, h, _, _ => by rw [Plain] at h; exact h.elim
theorem toJsonL_again (I : IntLaw E) (a escDT : Bool) : ∀ vs, PlainL E a escDT vs → FirmL E escDT vs → ∀ i dst,
    toJsonL E (styleOf a) escDT (denoteL E (dataL E (styleOf a) escDT vs)) i dst = toJsonL E (styleOf a) escDT vs i dst
  | [], _, _, _, _ => rfl
  | v :: vs, h, hf, i, dst => by
    rw [PlainL] at h; rw [FirmL] at hf
    have ih := toJsonL_again I a escDT vs h.2 hf.2
    rw [dataL, denoteL]
    rcases h.1 with rfl | hp
    · rw [data_nil, toJsonL, toJsonL]
      · simp only [ih]; rfl
      · simp
    · have hv : v ≠ .nil := by rintro rfl; rw [Plain] at hp; exact hp
      rw [toJsonL, toJsonL]
      · simp only [toJson_again I a escDT v hp hf.1, ih]
      · exact hv
      · exact denote_ne_nil _
theorem toJsonM_again (I : IntLaw E) (a escDT ku : Bool) : ∀ kvs, PlainM E a escDT kvs → FirmM E escDT kvs → ∀ i dst,
    toJsonM E (styleOf a) escDT false (denoteM E (dataM E (styleOf a) escDT ku kvs)) i dst = toJsonM E (styleOf a) escDT ku kvs i dst
  | [], _, _, _, _ => rfl
  | (k, v) :: kvs, h, hf, i, dst => by
    rw [PlainM] at h; rw [FirmM] at hf
    have ih := toJsonM_again I a escDT ku kvs h.2.2 hf.2
    have hk : keyText E (styleOf a) false (keyText E (styleOf a) ku k) = keyText E (styleOf a) ku k := by rw [keyText_styleOf]; rfl
    rw [dataM, denoteM, toJsonM, toJsonM]
    simp only [hk, ih, toJson_again I a escDT v h.2.1 hf.1]
end

theorem num_again_format {t : Bytes} (h : NumFirm E t) (st : Style) (escDT : Bool) (lv : Nat) (dst : Bytes) : format E st escDT (denote E (.num t)) lv dst = .ok (dst ++ t) := by
  unfold NumFirm at h
  unfold denote at h ⊢
  split at h <;> rename_i hd
  · rw [if_pos hd]
    simp only [Val.ofF32, toJson, format, List.nil_append, Res.ok.injEq] at h ⊢
    rw [h]
  · rw [if_neg hd]
    simp only [toJson, format, List.nil_append, Res.ok.injEq] at h ⊢
    rw [h]

mutual
theorem format_again (I : IntLaw E) (a escDT : Bool) : ∀ v, Plain E a escDT v → Firm E escDT v → ∀ lv dst,
    format E (styleOf a) escDT (denote E (data E (styleOf a) escDT v)) lv dst = format E (styleOf a) escDT v lv dst
  | .nil, h, _, _, _ => by rw [Plain] at h; exact h.elim
  | .obj ku kvs, h, hf, lv, dst => by
    rw [Plain] at h; rw [Firm] at hf
    rw [data, denote, format, format, formatM_again I a escDT ku kvs h hf]
  | .arr xs, h, hf, lv, dst => by
    rw [Plain] at h; rw [Firm] at hf
    rw [data, denote, format, format, formatL_again I a escDT xs h hf]
  | .str s, h, _, lv, dst => by
    rw [Plain] at h
    rw [data, denote, strText_styleOf, h, format, format, strText_styleOf]
  | .raw s, h, _, lv, dst => by
    rw [Plain] at h
    rw [data, denote, h.2]
  | .float c, _, hf, lv, dst => by
    rw [Firm] at hf
    rw [data, num_again_format hf, format]
  | .double c, _, hf, lv, dst => by
    rw [Firm] at hf
    rw [data, num_again_format hf, format]
  | .int _ c, _, _, lv, dst => by rw [data, denote, if_neg (decInt_no_dot _), I c, format, format]; rfl
  | .dateTime c, _, hf, lv, dst => by
    rw [Firm] at hf
    rw [data, denote]
    cases ht : E.jsonTime (timeBody E escDT c) with
    | none => simp only [format, timeText_body]; simp
    | some d => simp only [format, timeText_body, hf d ht]
  | .null, _, _, _, _ | .tru, _, _, _, _ | .fls, _, _, _, _ => rfl
  | .bin _ _, h, _, _, _ | .exbin _ _, h, _, _, _ | .nan, h, _, _, _ | .inf, h, _, _, _ => by rw [Plain] at h; exact h.elim
theorem formatL_again (I : IntLaw E) (a escDT : Bool) : ∀ vs, PlainL E a escDT vs → FirmL E escDT vs → ∀ i lv dst,
    formatL E (styleOf a) escDT (denoteL E (dataL E (styleOf a) escDT vs)) i lv dst = formatL E (styleOf a) escDT vs i lv dst
  | [], _, _, _, _, _ => rfl
  | v :: vs, h, hf, i, lv, dst => by
    rw [PlainL] at h; rw [FirmL] at hf
    have ih := formatL_again I a escDT vs h.2 hf.2
    rw [dataL, denoteL]
    rcases h.1 with rfl | hp
    · rw [data_nil, formatL, formatL]
      · simp only [ih]; rfl
      · simp
    · have hv : v ≠ .nil := by rintro rfl; rw [Plain] at hp; exact hp
      rw [formatL, formatL]
      · simp only [format_again I a escDT v hp hf.1, ih]
      · exact hv
      · exact denote_ne_nil _
theorem formatM_again (I : IntLaw E) (a escDT ku : Bool) : ∀ kvs, PlainM E a escDT kvs → FirmM E escDT kvs → ∀ i lv dst,
    formatM E (styleOf a) escDT false (denoteM E (dataM E (styleOf a) escDT ku kvs)) i lv dst = formatM E (styleOf a) escDT ku kvs i lv dst
  | [], _, _, _, _, _ => rfl
  | (k, v) :: kvs, h, hf, i, lv, dst => by
    rw [PlainM] at h; rw [FirmM] at hf
    have ih := formatM_again I a escDT ku kvs h.2.2 hf.2
    have hk : keyText E (styleOf a) false (keyText E (styleOf a) ku k) = keyText E (styleOf a) ku k := by rw [keyText_styleOf]; rfl
    rw [dataM, denoteM, formatM, formatM]
    simp only [hk, ih, format_again I a escDT v h.2.1 hf.1]
end

/-- **C132** for JSON: `t1` is what `ToJson` writes, `t2` what the indented form is. Whichever of the two is read, the value that comes back is written as `t1` and as `t2`. -/
theorem C132_json (E : Env) (L : EscLaw E) (I : IntLaw E) (a escDT : Bool) (v : Val) (h : Plain E a escDT v) (hf : Firm E escDT v)
    (hc : (∃ ku kvs, v = .obj ku kvs) ∨ ∃ xs, v = .arr xs) :
    ∃ t1 t2 r, value2Json E (styleOf a) escDT v = .ok t1 ∧ value2FormatJson E (styleOf a) escDT v = .ok t2 ∧ newValueFromJson E t1 = .ok r ∧ newValueFromJson E t2 = .ok r ∧
      value2Json E (styleOf a) escDT r = .ok t1 ∧ value2FormatJson E (styleOf a) escDT r = .ok t2 := by
  have hp := plain_enc E L a escDT v h
  obtain ⟨t1, h1, e1⟩ := toJson_text E (styleOf a) escDT v hp []
  obtain ⟨t2, h2, e2⟩ := format_text E (styleOf a) escDT v hp 0 []
  have hn : ∀ s, data E (styleOf a) escDT v ≠ .num s := by
    rcases hc with ⟨ku, kvs, rfl⟩ | ⟨xs, rfl⟩ <;> intro s <;> rw [data] <;> simp
  refine ⟨t1, t2, denote E (data E (styleOf a) escDT v), e1, e2, ?_, ?_, ?_, ?_⟩
  · simpa using C18_decodes E _ [] t1 [] ws_nil ws_nil h1 hn
  · simpa using C18_decodes E _ [] t2 [] ws_nil ws_nil h2 hn
  · unfold value2Json
    rw [toJson_again I a escDT v h hf, e1]; rfl
  · unfold value2FormatJson
    rw [format_again I a escDT v h hf, e2]; rfl

end Json

/-! ## Cases -/

/-- **C132**: two equal names in an object: the second reading drops one, so the bytes become others. -/
theorem C132_msgpack_names : MsgPack.newValueFromMsgPack envEx (MsgPack.value2MsgPack envEx (.obj true [([97], .int 0 1), ([97], .int 0 2)])) = .ok (.obj true [([97], .int 0 2)]) ∧
    MsgPack.value2MsgPack envEx (.obj true [([97], .int 0 2)]) ≠ MsgPack.value2MsgPack envEx (.obj true [([97], .int 0 1), ([97], .int 0 2)]) := by
  constructor <;> decide +kernel

/-- `C132_msgpack` for a value with a raw string, an extra byte, a time: what comes back is another value, the bytes are the same. -/
example : MsgPack.Supported (.arr [.raw [97], .int 17 5, .dateTime 7]) ∧ MsgPack.DistinctKeys envEx (.arr [.raw [97], .int 17 5, .dateTime 7]) ∧
    Times (MsgPack.Steady envEx) (.arr [.raw [97], .int 17 5, .dateTime 7]) ∧
    MsgPack.newValueFromMsgPack envEx (MsgPack.value2MsgPack envEx (.arr [.raw [97], .int 17 5, .dateTime 7])) = .ok (.arr [.str [97], .int 0 5, .dateTime 7]) := by
  refine ⟨⟨by decide, (by decide : 1 < 2 ^ 32), trivial, trivial, trivial⟩, ⟨trivial, trivial, trivial, trivial⟩, ⟨trivial, trivial, ?_, trivial⟩, by decide +kernel⟩
  show MsgPack.Steady envEx 7
  unfold MsgPack.Steady; decide +kernel

/-- `C132_bson` for an object whose names are escaped, with a time. -/
example : Bson.Survives envEx (.obj false [([97], .dateTime 7), ([98], .raw [99])]) ∧ Times (Bson.Steady envEx) (.obj false [([97], .dateTime 7), ([98], .raw [99])]) ∧
    (Bson.Spec.document (Bson.dataM envEx false [([97], .dateTime 7), ([98], .raw [99])])).length < 2 ^ 31 := by
  refine ⟨⟨by simp, by decide +kernel, by decide, trivial, by decide, trivial, trivial⟩, ⟨?_, trivial, trivial⟩, by decide +kernel⟩
  show Bson.Steady envEx 7
  rfl

/-- `C132_json`: the value of C19 has no floats and times. -/
example : Json.Firm envEx false (.obj false [([92, 110], .arr [.str [34, 92], .raw [92, 34], .nil, .int 0 (-7)]), ([98], .obj true [([10], .null)])]) :=
  ⟨⟨trivial, trivial, trivial, trivial, trivial⟩, ⟨trivial, trivial⟩, trivial⟩

/-- A float whose text is `0` is not written in another way again; a time that is written as `0` is read as a string and stays `"0"`. -/
example : Json.Firm envEx false (.arr [.double 3, .dateTime 5]) := by
  refine ⟨?_, ?_, trivial⟩
  · show Json.NumFirm envEx _
    unfold Json.NumFirm; decide +kernel
  · intro d h; cases h

end Dxs
