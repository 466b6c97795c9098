import Verif.Props.MsgPack
import Verif.Props.Bson
import Verif.Props.Json

/-!
# C107: conversions between the formats

What a document says, independent of the format and of the way the package keeps it, and what remains of it after any number of
conversions.
-/

namespace Dxs.Convert

/-- What a document says. -/
inductive Doc where
  | null
  | bool (b : Bool)
  | int (c : BitVec 64)
  | text (s : Bytes)
  | list (xs : List Doc)
  | map (kvs : List (Bytes × Doc))

mutual
/-- The value says this: a text can be kept as a string or as an unparsed JSON string, integers can have any BSON type but that of timestamps. -/
def Says : Doc → Val → Prop
  | .null, v => v = .null
  | .bool b, v => v = if b then .tru else .fls
  | .int c, v => ∃ e, e ≠ 17 ∧ v = .int e c
  | .text s, v => v = .str s ∨ v = .raw s
  | .list xs, v => ∃ ys, v = .arr ys ∧ SaysL xs ys
  | .map kvs, v => ∃ ku ys, v = .obj ku ys ∧ SaysM kvs ys
def SaysL : List Doc → List Val → Prop
  | [], ys => ys = []
  | d :: ds, ys => ∃ v vs, ys = v :: vs ∧ Says d v ∧ SaysL ds vs
def SaysM : List (Bytes × Doc) → List (Bytes × Val) → Prop
  | [], ys => ys = []
  | (k, d) :: ds, ys => ∃ v vs, ys = (k, v) :: vs ∧ Says d v ∧ SaysM ds vs
end

/-- A text that looks the same in all formats: nothing to escape or to unescape, and not the text of a JSON time. -/
structure Clean (E : Env) (s : Bytes) : Prop where
  body : Json.Spec.StrBody s
  esc : ∀ a, E.esc a s = s
  unesc : E.unesc s = s
  noTime : E.jsonTime s = none
  short : s.length < 2 ^ 32

/-- A name that looks the same in all formats. -/
structure CleanKey (E : Env) (k : Bytes) : Prop where
  noQuote : 34 ∉ k
  noNul : (0 : UInt8) ∉ k
  esc : ∀ a, E.esc a k = k
  unesc : E.unesc k = k
  short : k.length < 2 ^ 32

mutual
/-- The documents that all formats of the package can carry (see C14, C15, C19, C27, C42 for what cannot be carried). -/
def Portable (E : Env) : Doc → Prop
  | .null => True
  | .bool _ => True
  | .int c => 0 ≤ c.toInt ∨ c.toInt < -2 ^ 31
  | .text s => Clean E s
  | .list xs => xs ≠ [] ∧ xs.length < 2 ^ 32 ∧ PortableL E xs
  | .map kvs => kvs ≠ [] ∧ kvs.length < 2 ^ 32 ∧ (kvs.map Prod.fst).Pairwise (fun a b => E.keyMatch a b = false) ∧ PortableM E kvs
def PortableL (E : Env) : List Doc → Prop
  | [] => True
  | d :: ds => Portable E d ∧ PortableL E ds
def PortableM (E : Env) : List (Bytes × Doc) → Prop
  | [] => True
  | (k, d) :: ds => CleanKey E k ∧ Portable E d ∧ PortableM E ds
end

mutual
/-- The BSON element. -/
def bson : Doc → Bson.BElem
  | .null => .null
  | .bool b => .bool b
  | .int c => if -2 ^ 31 ≤ c.toInt ∧ c.toInt < 2 ^ 31 then .int32 c.toInt else .int64 c.toInt
  | .text s => .str s
  | .list xs => .arr (bsonL xs)
  | .map kvs => .doc (bsonM kvs)
def bsonL : List Doc → List Bson.BElem
  | [] => []
  | d :: ds => bson d :: bsonL ds
def bsonM : List (Bytes × Doc) → List (Bytes × Bson.BElem)
  | [] => []
  | (k, d) :: ds => (k, bson d) :: bsonM ds
end

/-- The formats, with the choices the caller has. -/
inductive Format where
  | msgPack
  /-- `hid`: what lies behind the document in memory -/
  | bson (hid : Bytes)
  | json (st : Json.Style) (escDT : Bool)
  | jsonFormat (st : Json.Style) (escDT : Bool)

/-- Written in a format and read again. -/
def through (E : Env) : Format → Val → Res Val
  | .msgPack, v => MsgPack.newValueFromMsgPack E (MsgPack.value2MsgPack E v)
  | .bson hid, v => (Bson.value2Bson E v []).bind (Bson.newValueFromBson E hid)
  | .json st escDT, v => (Json.value2Json E st escDT v).bind (Json.newValueFromJson E)
  | .jsonFormat st escDT, v => (Json.value2FormatJson E st escDT v).bind (Json.newValueFromJson E)

/-- One format after the other. -/
def chain (E : Env) : List Format → Val → Res Val
  | [], v => .ok v
  | f :: fs, v => (through E f v).bind (chain E fs)

/-! ## MessagePack -/

theorem saysM_fst : ∀ (kvs : List (Bytes × Doc)) (ys : List (Bytes × Val)), SaysM kvs ys → ys.map Prod.fst = kvs.map Prod.fst
  | [], ys, h => by rw [SaysM] at h; subst h; rfl
  | (k, d) :: ds, ys, h => by
    rw [SaysM] at h
    obtain ⟨v, vs, rfl, -, h2⟩ := h
    simp [saysM_fst ds vs h2]

theorem saysM_length {kvs : List (Bytes × Doc)} {ys : List (Bytes × Val)} (h : SaysM kvs ys) : ys.length = kvs.length := by
  simpa using congrArg List.length (saysM_fst kvs ys h)

theorem saysL_length : ∀ {xs : List Doc} {ys : List Val}, SaysL xs ys → ys.length = xs.length
  | [], ys, h => by rw [SaysL] at h; subst h; rfl
  | d :: ds, ys, h => by
    rw [SaysL] at h
    obtain ⟨v, vs, rfl, -, h2⟩ := h
    simp [saysL_length h2]

section
variable (E : Env)

mutual
theorem says_supported : ∀ (d : Doc) (v : Val), Portable E d → Says d v → MsgPack.Supported v ∧ MsgPack.DistinctKeys E v
  | .null, v, _, h => by rw [Says] at h; subst h; exact ⟨trivial, trivial⟩
  | .bool b, v, _, h => by rw [Says] at h; subst h; cases b <;> exact ⟨trivial, trivial⟩
  | .int c, v, _, h => by rw [Says] at h; obtain ⟨e, -, rfl⟩ := h; exact ⟨trivial, trivial⟩
  | .text s, v, hp, h => by rw [Says] at h; rw [Portable] at hp; rcases h with rfl | rfl <;> exact ⟨hp.short, trivial⟩
  | .list xs, v, hp, h => by
    rw [Says] at h; rw [Portable] at hp
    obtain ⟨ys, rfl, h⟩ := h
    obtain ⟨a, b⟩ := saysL_supported xs ys hp.2.2 h
    exact ⟨⟨by rw [saysL_length h]; exact hp.2.1, a⟩, b⟩
  | .map kvs, v, hp, h => by
    rw [Says] at h; rw [Portable] at hp
    obtain ⟨ku, ys, rfl, h⟩ := h
    obtain ⟨a, b⟩ := saysM_supported kvs ys hp.2.2.2 h
    exact ⟨⟨by rw [saysM_length h]; exact hp.2.1, a⟩, by rw [saysM_fst kvs ys h]; exact hp.2.2.1, b⟩
theorem saysL_supported : ∀ (xs : List Doc) (ys : List Val), PortableL E xs → SaysL xs ys → MsgPack.SupportedL ys ∧ MsgPack.DistinctKeysL E ys
  | [], ys, _, h => by rw [SaysL] at h; subst h; exact ⟨trivial, trivial⟩
  | d :: ds, ys, hp, h => by
    rw [SaysL] at h; rw [PortableL] at hp
    obtain ⟨v, vs, rfl, h1, h2⟩ := h
    obtain ⟨a, b⟩ := says_supported d v hp.1 h1
    obtain ⟨a', b'⟩ := saysL_supported ds vs hp.2 h2
    exact ⟨⟨a, a'⟩, ⟨b, b'⟩⟩
theorem saysM_supported : ∀ (xs : List (Bytes × Doc)) (ys : List (Bytes × Val)), PortableM E xs → SaysM xs ys → MsgPack.SupportedM ys ∧ MsgPack.DistinctKeysM E ys
  | [], ys, _, h => by rw [SaysM] at h; subst h; exact ⟨trivial, trivial⟩
  | (k, d) :: ds, ys, hp, h => by
    rw [SaysM] at h; rw [PortableM] at hp
    obtain ⟨v, vs, rfl, h1, h2⟩ := h
    obtain ⟨a, b⟩ := says_supported d v hp.2.1 h1
    obtain ⟨a', b'⟩ := saysM_supported ds vs hp.2.2 h2
    exact ⟨⟨hp.1.short, a, a'⟩, ⟨b, b'⟩⟩
end

mutual
theorem says_same : ∀ (d : Doc) (v w : Val), Says d v → MsgPack.Same E v w → Says d w
  | .null, v, w, h, s => by rw [Says] at h ⊢; subst h; exact s
  | .bool b, v, w, h, s => by
    rw [Says] at h ⊢; subst h
    cases b <;> exact s
  | .int c, v, w, h, s => by rw [Says] at h ⊢; obtain ⟨e, -, rfl⟩ := h; exact ⟨0, by decide, s⟩
  | .text t, v, w, h, s => by rw [Says] at h ⊢; rcases h with rfl | rfl <;> exact Or.inl s
  | .list xs, v, w, h, s => by
    rw [Says] at h ⊢
    obtain ⟨ys, rfl, h⟩ := h
    obtain ⟨zs, rfl, s⟩ := s
    exact ⟨zs, rfl, saysL_same xs ys zs h s⟩
  | .map kvs, v, w, h, s => by
    rw [Says] at h ⊢
    obtain ⟨ku, ys, rfl, h⟩ := h
    obtain ⟨ku', zs, rfl, s⟩ := s
    exact ⟨ku', zs, rfl, saysM_same kvs ys zs h s⟩
theorem saysL_same : ∀ (xs : List Doc) (ys zs : List Val), SaysL xs ys → MsgPack.SameL E ys zs → SaysL xs zs
  | [], ys, zs, h, s => by rw [SaysL] at h ⊢; subst h; exact s
  | d :: ds, ys, zs, h, s => by
    rw [SaysL] at h ⊢
    obtain ⟨v, vs, rfl, h1, h2⟩ := h
    obtain ⟨w, ws, rfl, s1, s2⟩ := s
    exact ⟨w, ws, rfl, says_same d v w h1 s1, saysL_same ds vs ws h2 s2⟩
theorem saysM_same : ∀ (xs : List (Bytes × Doc)) (ys zs : List (Bytes × Val)), SaysM xs ys → MsgPack.SameM E ys zs → SaysM xs zs
  | [], ys, zs, h, s => by rw [SaysM] at h ⊢; subst h; exact s
  | (k, d) :: ds, ys, zs, h, s => by
    rw [SaysM] at h ⊢
    obtain ⟨v, vs, rfl, h1, h2⟩ := h
    obtain ⟨w, ws, rfl, s1, s2⟩ := s
    exact ⟨w, ws, rfl, says_same d v w h1 s1, saysM_same ds vs ws h2 s2⟩
end

theorem msgPack_says (d : Doc) (v : Val) (hp : Portable E d) (h : Says d v) : ∃ w, through E .msgPack v = .ok w ∧ Says d w := by
  obtain ⟨hs, hk⟩ := says_supported E d v hp h
  obtain ⟨w, sw, e⟩ := MsgPack.C03_roundtrip E v [] hs hk
  refine ⟨w, ?_, says_same E d v w h sw⟩
  rw [List.append_nil] at e
  simp [through, MsgPack.newValueFromMsgPack, e]

/-! ## BSON -/

theorem key_clean {k : Bytes} (h : CleanKey E k) (ku : Bool) : (if ku then k else E.unesc k) = k := by
  cases ku
  · exact h.unesc
  · rfl

mutual
theorem says_bson : ∀ (d : Doc) (v : Val), Portable E d → Says d v → Bson.Survives E v ∧ Bson.data E v = bson d
  | .null, v, _, h => by rw [Says] at h; subst h; exact ⟨trivial, rfl⟩
  | .bool b, v, _, h => by rw [Says] at h; subst h; cases b <;> exact ⟨trivial, rfl⟩
  | .int c, v, hp, h => by
    rw [Says] at h; rw [Portable] at hp
    obtain ⟨e, he, rfl⟩ := h
    refine ⟨Or.inr hp, ?_⟩
    rw [Bson.data, if_neg he, bson]
  | .text s, v, hp, h => by
    rw [Says] at h; rw [Portable] at hp
    rcases h with rfl | rfl
    · exact ⟨trivial, rfl⟩
    · refine ⟨trivial, ?_⟩
      rw [Bson.data, hp.unesc, bson]
  | .list xs, v, hp, h => by
    rw [Says] at h; rw [Portable] at hp
    obtain ⟨ys, rfl, h⟩ := h
    obtain ⟨a, b⟩ := saysL_bson xs ys hp.2.2 h
    refine ⟨⟨fun e => hp.1 ?_, a⟩, by rw [Bson.data, b, bson]⟩
    have := saysL_length h
    rw [e] at this
    exact List.eq_nil_of_length_eq_zero this.symm
  | .map kvs, v, hp, h => by
    rw [Says] at h; rw [Portable] at hp
    obtain ⟨ku, ys, rfl, h⟩ := h
    obtain ⟨a, b, c⟩ := saysM_bson ku kvs ys hp.2.2.2 h
    refine ⟨⟨fun e => hp.1 ?_, ?_, a⟩, by rw [Bson.data, b, bson]⟩
    · have := saysM_length h
      rw [e] at this
      exact List.eq_nil_of_length_eq_zero this.symm
    · rw [c]; exact hp.2.2.1
theorem saysL_bson : ∀ (xs : List Doc) (ys : List Val), PortableL E xs → SaysL xs ys → Bson.SurvivesL E ys ∧ Bson.dataL E ys = bsonL xs
  | [], ys, _, h => by rw [SaysL] at h; subst h; exact ⟨trivial, rfl⟩
  | d :: ds, ys, hp, h => by
    rw [SaysL] at h; rw [PortableL] at hp
    obtain ⟨v, vs, rfl, h1, h2⟩ := h
    obtain ⟨a, b⟩ := says_bson d v hp.1 h1
    obtain ⟨a', b'⟩ := saysL_bson ds vs hp.2 h2
    exact ⟨⟨a, a'⟩, by rw [Bson.dataL, b, b', bsonL]⟩
theorem saysM_bson (ku : Bool) : ∀ (xs : List (Bytes × Doc)) (ys : List (Bytes × Val)), PortableM E xs → SaysM xs ys →
    Bson.SurvivesM E ku ys ∧ Bson.dataM E ku ys = bsonM xs ∧ (unescKeys E ku ys).map Prod.fst = xs.map Prod.fst
  | [], ys, _, h => by rw [SaysM] at h; subst h; cases ku <;> exact ⟨trivial, rfl, rfl⟩
  | (k, d) :: ds, ys, hp, h => by
    rw [SaysM] at h; rw [PortableM] at hp
    obtain ⟨v, vs, rfl, h1, h2⟩ := h
    obtain ⟨a, b⟩ := says_bson d v hp.2.1 h1
    obtain ⟨a', b', c'⟩ := saysM_bson ku ds vs hp.2.2 h2
    refine ⟨⟨by rw [key_clean E hp.1]; exact hp.1.noNul, a, a'⟩, by rw [Bson.dataM, b, b', bsonM, key_clean E hp.1], ?_⟩
    cases ku with
    | true => simpa [unescKeys] using c'
    | false => simpa [unescKeys, hp.1.unesc] using c'
end

mutual
theorem says_sameB : ∀ (d : Doc) (v w : Val), Portable E d → Says d v → Bson.Same E v w → Says d w
  | .null, v, w, _, h, s => by rw [Says] at h ⊢; subst h; exact s
  | .bool b, v, w, _, h, s => by
    rw [Says] at h ⊢; subst h
    cases b <;> exact s
  | .int c, v, w, _, h, s => by
    rw [Says] at h ⊢
    obtain ⟨e, he, rfl⟩ := h
    rw [Bson.Same, if_neg he] at s
    exact ⟨0, by decide, s⟩
  | .text t, v, w, hp, h, s => by
    rw [Says] at h ⊢; rw [Portable] at hp
    rcases h with rfl | rfl
    · exact Or.inl s
    · rw [Bson.Same, hp.unesc] at s; exact Or.inl s
  | .list xs, v, w, hp, h, s => by
    rw [Says] at h ⊢; rw [Portable] at hp
    obtain ⟨ys, rfl, h⟩ := h
    obtain ⟨zs, rfl, s⟩ := s
    exact ⟨zs, rfl, saysL_sameB xs ys zs hp.2.2 h s⟩
  | .map kvs, v, w, hp, h, s => by
    rw [Says] at h ⊢; rw [Portable] at hp
    obtain ⟨ku, ys, rfl, h⟩ := h
    obtain ⟨zs, rfl, s⟩ := s
    exact ⟨true, zs, rfl, saysM_sameB ku kvs ys zs hp.2.2.2 h s⟩
theorem saysL_sameB : ∀ (xs : List Doc) (ys zs : List Val), PortableL E xs → SaysL xs ys → Bson.SameL E ys zs → SaysL xs zs
  | [], ys, zs, _, h, s => by rw [SaysL] at h ⊢; subst h; exact s
  | d :: ds, ys, zs, hp, h, s => by
    rw [SaysL] at h ⊢; rw [PortableL] at hp
    obtain ⟨v, vs, rfl, h1, h2⟩ := h
    obtain ⟨w, ws, rfl, s1, s2⟩ := s
    exact ⟨w, ws, rfl, says_sameB d v w hp.1 h1 s1, saysL_sameB ds vs ws hp.2 h2 s2⟩
theorem saysM_sameB (ku : Bool) : ∀ (xs : List (Bytes × Doc)) (ys zs : List (Bytes × Val)), PortableM E xs → SaysM xs ys → Bson.SameM E ku ys zs → SaysM xs zs
  | [], ys, zs, _, h, s => by rw [SaysM] at h ⊢; subst h; exact s
  | (k, d) :: ds, ys, zs, hp, h, s => by
    rw [SaysM] at h ⊢; rw [PortableM] at hp
    obtain ⟨v, vs, rfl, h1, h2⟩ := h
    obtain ⟨w, ws, rfl, s1, s2⟩ := s
    exact ⟨w, ws, by rw [key_clean E hp.1], says_sameB d v w hp.2.1 h1 s1, saysM_sameB ku ds vs ws hp.2.2 h2 s2⟩
end

theorem bson_says (hE : Bson.IndexLaw E) (hid : Bytes) (kvs : List (Bytes × Doc)) (v : Val) (hp : Portable E (.map kvs)) (h : Says (.map kvs) v)
    (hl : (Bson.Spec.document (bsonM kvs)).length < 2 ^ 31) : ∃ w, through E (.bson hid) v = .ok w ∧ Says (.map kvs) w := by
  obtain ⟨hs, hd⟩ := says_bson E _ v hp h
  have h0 := h
  rw [Says] at h
  obtain ⟨ku, ys, rfl, h⟩ := h
  rw [Bson.data, bson] at hd
  have hd : Bson.dataM E ku ys = bsonM kvs := by injection hd
  obtain ⟨bs, w, e1, e2, sw⟩ := Bson.C13_roundtrip_partial E hE hid [] ku ys hs (by rw [hd]; exact hl)
  rw [List.append_nil] at e2
  exact ⟨w, by simp [through, e1, e2, Res.bind], says_sameB E _ _ w hp h0 sw⟩

/-! ## JSON -/

theorem strText_clean {s : Bytes} (h : ∀ a, E.esc a s = s) (st : Json.Style) : Json.strText E st s = s := by
  cases st
  · rfl
  · exact h true
  · exact h false

theorem keyText_clean {k : Bytes} (h : CleanKey E k) (st : Json.Style) (ku : Bool) : Json.keyText E st ku k = k := by
  cases st <;> cases ku <;> simp [Json.keyText, h.esc, h.unesc]

open Json in
mutual
theorem says_json (I : Json.Spec.IntLaw E) (st : Json.Style) (escDT : Bool) : ∀ (d : Doc) (v : Val), Portable E d → Says d v →
    Json.Enc E st escDT v ∧ Says d (Spec.denote E (Json.data E st escDT v))
  | .null, v, _, h => by rw [Says] at h; subst h; rw [Enc, data, Spec.denote, Says]; exact ⟨trivial, rfl⟩
  | .bool b, v, _, h => by rw [Says] at h; subst h; cases b <;> (simp only [Bool.false_eq_true, if_false, if_true]; rw [Enc, data, Spec.denote, Says]; exact ⟨trivial, rfl⟩)
  | .int c, v, _, h => by
    rw [Says] at h; obtain ⟨e, -, rfl⟩ := h
    rw [Enc, data, Spec.denote, if_neg (decInt_no_dot _), I c, Says]
    exact ⟨trivial, 0, by decide, rfl⟩
  | .text s, v, hp, h => by
    rw [Says] at h; rw [Portable] at hp
    rcases h with rfl | rfl
    · rw [Enc, data, strText_clean E hp.esc, Spec.denote, hp.noTime, Says]
      exact ⟨hp.body, Or.inr rfl⟩
    · rw [Enc, data, Spec.denote, hp.noTime, Says]
      exact ⟨hp.body, Or.inr rfl⟩
  | .list xs, v, hp, h => by
    rw [Says] at h; rw [Portable] at hp
    obtain ⟨ys, rfl, h⟩ := h
    obtain ⟨a, b⟩ := saysL_json I st escDT xs ys hp.2.2 h
    rw [Enc, data, Spec.denote, Says]
    exact ⟨a, _, rfl, b⟩
  | .map kvs, v, hp, h => by
    rw [Says] at h; rw [Portable] at hp
    obtain ⟨ku, ys, rfl, h⟩ := h
    obtain ⟨a, b⟩ := saysM_json I st escDT ku kvs ys hp.2.2.2 h
    rw [Enc, data, Spec.denote, Says]
    exact ⟨a, _, _, rfl, b⟩
theorem saysL_json (I : Json.Spec.IntLaw E) (st : Json.Style) (escDT : Bool) : ∀ (xs : List Doc) (ys : List Val), PortableL E xs → SaysL xs ys →
    Json.EncL E st escDT ys ∧ SaysL xs (Spec.denoteL E (Json.dataL E st escDT ys))
  | [], ys, _, h => by rw [SaysL] at h; subst h; rw [EncL, dataL, Spec.denoteL, SaysL]; exact ⟨trivial, rfl⟩
  | d :: ds, ys, hp, h => by
    rw [SaysL] at h; rw [PortableL] at hp
    obtain ⟨v, vs, rfl, h1, h2⟩ := h
    obtain ⟨a, b⟩ := says_json I st escDT d v hp.1 h1
    obtain ⟨a', b'⟩ := saysL_json I st escDT ds vs hp.2 h2
    rw [EncL, dataL, Spec.denoteL, SaysL]
    exact ⟨⟨Or.inr a, a'⟩, _, _, rfl, b, b'⟩
theorem saysM_json (I : Json.Spec.IntLaw E) (st : Json.Style) (escDT ku : Bool) : ∀ (xs : List (Bytes × Doc)) (ys : List (Bytes × Val)), PortableM E xs → SaysM xs ys →
    Json.EncM E st escDT ku ys ∧ SaysM xs (Spec.denoteM E (Json.dataM E st escDT ku ys))
  | [], ys, _, h => by rw [SaysM] at h; subst h; rw [EncM, dataM, Spec.denoteM, SaysM]; exact ⟨trivial, rfl⟩
  | (k, d) :: ds, ys, hp, h => by
    rw [SaysM] at h; rw [PortableM] at hp
    obtain ⟨v, vs, rfl, h1, h2⟩ := h
    obtain ⟨a, b⟩ := says_json I st escDT d v hp.2.1 h1
    obtain ⟨a', b'⟩ := saysM_json I st escDT ku ds vs hp.2.2 h2
    rw [EncM, dataM, Spec.denoteM, SaysM, keyText_clean E hp.1]
    exact ⟨⟨hp.1.noQuote, a, a'⟩, _, _, rfl, b, b'⟩
end

theorem json_says (I : Json.Spec.IntLaw E) (st : Json.Style) (escDT : Bool) (kvs : List (Bytes × Doc)) (v : Val) (hp : Portable E (.map kvs)) (h : Says (.map kvs) v) :
    (∃ w, through E (.json st escDT) v = .ok w ∧ Says (.map kvs) w) ∧ (∃ w, through E (.jsonFormat st escDT) v = .ok w ∧ Says (.map kvs) w) := by
  obtain ⟨he, hs⟩ := says_json E I st escDT _ v hp h
  rw [Says] at h
  obtain ⟨ku, ys, rfl, -⟩ := h
  obtain ⟨t1, t2, r, e1, e2, d1, d2⟩ := Json.C20_same_partial E st escDT _ he (by intro s; rw [Json.data]; simp)
  obtain ⟨t, ht, e⟩ := Json.toJson_text E st escDT _ he []
  have hr : Json.newValueFromJson E t1 = .ok (Json.Spec.denote E (Json.data E st escDT (.obj ku ys))) := by
    have h3 := Json.C18_decodes E _ [] t [] Json.ws_nil Json.ws_nil ht (by intro s; rw [Json.data]; simp)
    have h4 : t1 = t := by
      have e1' : Json.toJson E st escDT (.obj ku ys) [] = .ok t1 := e1
      rw [e] at e1'
      simpa using (Res.ok.inj e1').symm
    rw [h4]; simpa using h3
  have hr2 := d1.symm.trans hr
  cases hr2
  exact ⟨⟨_, by simp [through, e1, d1, Res.bind], hs⟩, ⟨_, by simp [through, e2, d2, Res.bind], hs⟩⟩

/-- **C107.** A portable document, kept in whatever way, says the same after any chain of conversions through MessagePack, BSON, compact and formatted JSON in
every escaping style. -/
theorem C107_chain_partial (hE : Bson.IndexLaw E) (I : Json.Spec.IntLaw E) (kvs : List (Bytes × Doc)) (hp : Portable E (.map kvs))
    (hl : (Bson.Spec.document (bsonM kvs)).length < 2 ^ 31) : ∀ (fs : List Format) (v : Val), Says (.map kvs) v → ∃ w, chain E fs v = .ok w ∧ Says (.map kvs) w
  | [], v, h => ⟨v, rfl, h⟩
  | f :: fs, v, h => by
    have : ∃ w, through E f v = .ok w ∧ Says (.map kvs) w := by
      cases f with
      | msgPack => exact msgPack_says E _ v hp h
      | bson hid => exact bson_says E hE hid kvs v hp h hl
      | json st escDT => exact (json_says E I st escDT kvs v hp h).1
      | jsonFormat st escDT => exact (json_says E I st escDT kvs v hp h).2
    obtain ⟨w, e, hw⟩ := this
    obtain ⟨w', e', hw'⟩ := C107_chain_partial hE I kvs hp hl fs w hw
    exact ⟨w', by simp [chain, e, e', Res.bind], hw'⟩

end

/-- `{"a":["x",5,{"b":true}],"c":null}`. -/
def docEx : List (Bytes × Doc) := [([97], .list [.text [120], .int 5, .map [([98], .bool true)]]), ([99], .null)]

/-- The hypotheses hold for it, and it can be kept as a freshly parsed JSON text. -/
theorem docEx_portable : Portable envEx (.map docEx) := by
  have key : ∀ c : UInt8, c ∈ [97, 98, 99] → CleanKey envEx [c] := by
    intro c hc
    simp only [List.mem_cons, List.not_mem_nil, or_false] at hc
    rcases hc with rfl | rfl | rfl <;> exact ⟨by decide, by decide, fun _ => rfl, rfl, by decide⟩
  refine ⟨by simp [docEx], by decide, by decide, key 97 (by simp), ⟨by simp, by decide, ⟨.char _ _ (by decide) (by decide) .nil, fun _ => rfl, rfl, rfl, by decide⟩, .inl (by decide), ?_, trivial⟩,
    key 99 (by simp), trivial, trivial⟩
  exact ⟨by simp, by decide, by decide, key 98 (by simp), trivial, trivial⟩

theorem docEx_says : Says (.map docEx) (.obj false [([97], .arr [.raw [120], .int 0 5, .obj false [([98], .tru)]]), ([99], .null)]) :=
  ⟨false, _, rfl, _, _, rfl, ⟨_, rfl, _, _, rfl, Or.inr rfl, _, _, rfl, ⟨0, by decide, rfl⟩, _, _, rfl, ⟨false, _, rfl, _, _, rfl, rfl, rfl⟩, rfl⟩, _, _, rfl, rfl, rfl⟩

example : ∃ w, chain envEx [.msgPack, .json .allEscape true, .bson [1, 2], .jsonFormat .noEscape false, .msgPack]
    (.obj false [([97], .arr [.raw [120], .int 0 5, .obj false [([98], .tru)]]), ([99], .null)]) = .ok w ∧ Says (.map docEx) w :=
  C107_chain_partial envEx Bson.indexLaw_ex Json.intLaw_ex docEx docEx_portable (by decide) _ _ docEx_says

/-- **C107 is false in general**: a JSON string with escapes, read and written as MessagePack, becomes a string with the escapes as ordinary bytes: what `String()`
gives before (`unesc s`) is not what it gives after (`s`). -/
theorem C107_escape_counterexample (E : Env) (k s : Bytes) (hs : Json.Spec.StrBody s) (hk : 34 ∉ k) (ht : E.jsonTime s = none) (h1 : s.length < 2 ^ 32) (h2 : k.length < 2 ^ 32) :
    ∃ v w, Json.newValueFromJson E ([123, 34] ++ k ++ [34, 58, 34] ++ s ++ [34, 125]) = .ok v ∧ v = .obj false [(k, .raw s)] ∧
      through E .msgPack v = .ok w ∧ ∃ ku, w = .obj ku [(k, .str s)] := by
  have hd := Json.C18_decodes E (.obj [(k, .str s)]) [] ([123, 34] ++ k ++ [34, 58, 34] ++ s ++ [34, 125]) [] Json.ws_nil Json.ws_nil
    (Or.inr ⟨_, ⟨[], [], [], 34 :: s ++ [34], [], Json.ws_nil, Json.ws_nil, Json.ws_nil, Json.ws_nil, ⟨hs, rfl⟩, hk, Or.inl ⟨rfl, rfl⟩⟩, by simp⟩) (by simp)
  obtain ⟨w, sw, e⟩ := MsgPack.C03_roundtrip E (.obj false [(k, .raw s)]) [] ⟨by simp, h2, h1, trivial⟩ ⟨by simp, trivial, trivial⟩
  obtain ⟨ku, ys, rfl, w, ws, rfl, hw, hws⟩ := sw
  have hw : w = .str s := hw
  have hws : ws = [] := hws
  subst hw; subst hws
  refine ⟨_, _, ?_, rfl, ?_, ku, rfl⟩
  · simpa [Json.Spec.denote, Json.Spec.denoteM, ht] using hd
  · rw [List.append_nil] at e
    simp [through, MsgPack.newValueFromMsgPack, e]

/-- `{"a":"\\n"}`: a line feed becomes a backslash and an n. -/
example : envEx.unesc [92, 110] = [10] ∧ (chain envEx [.msgPack] (.obj false [([97], .raw [92, 110])])) = .ok (.obj true [([97], .str [92, 110])]) := ⟨rfl, rfl⟩

/-- The same for names: the escape in the name becomes part of it. -/
theorem C107_key_counterexample : Json.newValueFromJson envEx [123, 34, 92, 110, 34, 58, 49, 125] = .ok (.obj false [([92, 110], .int 0 1)]) ∧
    chain envEx [.msgPack] (.obj false [([92, 110], .int 0 1)]) = .ok (.obj true [([92, 110], .int 0 1)]) ∧ envEx.unesc [92, 110] = [10] := ⟨rfl, rfl, rfl⟩

end Dxs.Convert
