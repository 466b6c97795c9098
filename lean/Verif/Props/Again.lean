import Verif.Props.MsgPack
import Verif.Props.Whole
import Verif.Props.Json
import Verif.Props.Bson
import Verif.Json.Grammar
import Verif.EnvEx

/-! # C133: what was read is written and read again as it was

`NewValueFromMsgPack` (msgpackparse.go:487-499) of `Value2MsgPack` (msgpackparse.go:511-583) of what `NewValueFromMsgPack` gave; the same for JSON (jsonparse.go:410-432, 646-839) and BSON (bson_parse.go:257-282). -/

namespace Dxs

mutual
/-- All parts that are neither arrays nor objects have the property. -/
def Leaves (P : Val → Prop) : Val → Prop
  | .arr xs => LeavesL P xs
  | .obj _ kvs => LeavesM P kvs
  | v => P v
/-- The elements. -/
def LeavesL (P : Val → Prop) : List Val → Prop
  | [] => True
  | v :: vs => Leaves P v ∧ LeavesL P vs
/-- The members. -/
def LeavesM (P : Val → Prop) : List (Bytes × Val) → Prop
  | [] => True
  | (_, v) :: kvs => Leaves P v ∧ LeavesM P kvs
end

namespace MsgPack

/-- The leaves MessagePack, as this package writes it, carries: not nil (which the byte 0xc1 makes, C104), extensions of the lengths and types of C09, times that survive seconds and nanoseconds. -/
def Kept (E : Env) : Val → Prop
  | .nil => False
  | .exbin _ b => b.head? ≠ some 0xff ∧ fixextLen (b.length - 1) = false
  | .dateTime c => E.ofUnix (E.unixSec c) (E.unixNano c).val = c
  | _ => True

mutual
/-- What the reader can give: extra bytes are 0, the upper half of a float is 0, lengths are below 2^32, the names in an object are distinct and count as unescaped (in the empty object: as escaped). -/
def Given (E : Env) : Val → Prop
  | .nil | .null | .tru | .fls | .double _ | .dateTime _ => True
  | .str s => s.length < 2 ^ 32
  | .int e _ => e = 0
  | .float c => Val.float c = Val.ofF32 (lo32 c)
  | .bin e b => e = 0 ∧ b.length < 2 ^ 32
  | .exbin e b => e = 0 ∧ ∃ t p, b = t :: p ∧ p.length < 2 ^ 32
  | .arr xs => xs.length < 2 ^ 32 ∧ GivenL E xs
  | .obj ku kvs => ku = !kvs.isEmpty ∧ kvs.length < 2 ^ 32 ∧ Assoc.Distinct E.keyMatch kvs ∧ GivenM E kvs
  | .raw _ | .nan | .inf => False
def GivenL (E : Env) : List Val → Prop
  | [] => True
  | v :: vs => Given E v ∧ GivenL E vs
def GivenM (E : Env) : List (Bytes × Val) → Prop
  | [] => True
  | (k, v) :: kvs => (k.length < 2 ^ 32 ∧ Given E v) ∧ GivenM E kvs
end

variable {E : Env}

theorem givenM_all : ∀ {kvs : List (Bytes × Val)}, GivenM E kvs ↔ ∀ kv ∈ kvs, kv.1.length < 2 ^ 32 ∧ Given E kv.2
  | [] => by simp [GivenM]
  | (k, v) :: kvs => by simp only [GivenM, givenM_all (kvs := kvs), List.mem_cons, forall_eq_or_imp]

mutual
theorem given_supported : ∀ v, Given E v → Leaves (Kept E) v → Supported v ∧ DistinctKeys E v
  | .nil, _, k => k.elim
  | .null, _, _ | .tru, _, _ | .fls, _, _ | .double _, _, _ | .dateTime _, _, _ | .int _ _, _, _ | .float _, _, _ => ⟨trivial, trivial⟩
  | .str s, g, _ => ⟨g, trivial⟩
  | .bin _ _, g, _ => ⟨g.2, trivial⟩
  | .exbin _ _, g, k => by
    obtain ⟨_, t, p, rfl, hp⟩ := g
    obtain ⟨k1, k2⟩ := k
    exact ⟨⟨t, p, rfl, by simpa using k1, hp, by simpa using k2⟩, trivial⟩
  | .arr xs, g, k => ⟨⟨g.1, (given_supportedL xs g.2 k).1⟩, (given_supportedL xs g.2 k).2⟩
  | .obj ku kvs, g, k => ⟨⟨g.2.1, (given_supportedM kvs g.2.2.2 k).1⟩, g.2.2.1, (given_supportedM kvs g.2.2.2 k).2⟩
  | .raw _, g, _ | .nan, g, _ | .inf, g, _ => g.elim
theorem given_supportedL : ∀ vs, GivenL E vs → LeavesL (Kept E) vs → SupportedL vs ∧ DistinctKeysL E vs
  | [], _, _ => ⟨trivial, trivial⟩
  | v :: vs, g, k => by
    have a := given_supported v g.1 k.1
    have b := given_supportedL vs g.2 k.2
    exact ⟨⟨a.1, b.1⟩, a.2, b.2⟩
theorem given_supportedM : ∀ kvs, GivenM E kvs → LeavesM (Kept E) kvs → SupportedM kvs ∧ DistinctKeysM E kvs
  | [], _, _ => ⟨trivial, trivial⟩
  | (_, v) :: vs, g, k => by
    have a := given_supported v g.1.2 k.1
    have b := given_supportedM vs g.2 k.2
    exact ⟨⟨g.1.1, a.1, b.1⟩, a.2, b.2⟩
end

mutual
theorem given_same : ∀ v w, Given E v → Leaves (Kept E) v → Given E w → Same E v w → w = v
  | .nil, _, _, k, _, _ => k.elim
  | .null, w, _, _, _, s | .tru, w, _, _, _, s | .fls, w, _, _, _, s | .double _, w, _, _, _, s | .str _, w, _, _, _, s => s
  | .dateTime c, w, _, k, _, s => by
    rw [Same] at s
    have k : E.ofUnix _ _ = c := k
    rw [s, k]
  | .int _ _, w, g, _, _, s => by rw [Same] at s; rw [s, show _ = _ from g]
  | .float c, w, g, _, gw, s => by
    rw [Same] at s
    obtain ⟨c', rfl, hc⟩ := s
    rw [Given] at g gw
    rw [g, gw, hc]
  | .bin _ _, w, g, _, _, s => by rw [Same] at s; rw [s, g.1]
  | .exbin _ _, w, g, _, _, s => by rw [Same] at s; rw [s, g.1]
  | .arr xs, w, g, k, gw, s => by
    obtain ⟨ys, rfl, s⟩ := s
    rw [given_sameL xs ys g.2 k gw.2 s]
  | .obj ku kvs, w, g, k, gw, s => by
    obtain ⟨ku', ys, rfl, s⟩ := s
    have e := given_sameM kvs ys g.2.2.2 k gw.2.2.2 s
    subst e
    rw [g.1, gw.1]
  | .raw _, _, g, _, _, _ | .nan, _, g, _, _, _ | .inf, _, g, _, _, _ => g.elim
theorem given_sameL : ∀ vs ws, GivenL E vs → LeavesL (Kept E) vs → GivenL E ws → SameL E vs ws → ws = vs
  | [], _, _, _, _, s => s
  | v :: vs, _, g, k, gw, s => by
    obtain ⟨w, ws, rfl, s1, s2⟩ := s
    rw [given_same v w g.1 k.1 gw.1 s1, given_sameL vs ws g.2 k.2 gw.2 s2]
theorem given_sameM : ∀ vs ws, GivenM E vs → LeavesM (Kept E) vs → GivenM E ws → SameM E vs ws → ws = vs
  | [], _, _, _, _, s => s
  | (_, v) :: vs, _, g, k, gw, s => by
    obtain ⟨w, ws, rfl, s1, s2⟩ := s
    rw [given_same v w g.1.2 k.1 gw.1.2 s1, given_sameM vs ws g.2 k.2 gw.2 s2]
end

/-! ## What the reader gives -/

theorem uint8_lt {b t : Bytes} {n : Nat} (h : parseUint8 b = .ok (n, t)) : n < 2 ^ 32 := by
  cases b with
  | nil => cases h
  | cons x b => cases h; have := x.toNat_lt; omega

theorem uint16_lt {b t : Bytes} {n : Nat} (h : parseUint16 b = .ok (n, t)) : n < 2 ^ 32 := by
  rcases b with _ | ⟨x, _ | ⟨y, b⟩⟩ <;> cases h
  have := x.toNat_lt; have := y.toNat_lt
  unfold be16
  refine Nat.or_lt_two_pow ?_ (by omega)
  rw [Nat.shiftLeft_eq]; omega

theorem uint32_lt {b t : Bytes} {n : Nat} (h : parseUint32 b = .ok (n, t)) : n < 2 ^ 32 := by
  rcases b with _ | ⟨x, _ | ⟨y, _ | ⟨z, _ | ⟨w, b⟩⟩⟩⟩ <;> cases h
  have := x.toNat_lt; have := y.toNat_lt; have := z.toNat_lt; have := w.toNat_lt
  unfold be32
  refine Nat.or_lt_two_pow (Nat.or_lt_two_pow (Nat.or_lt_two_pow ?_ ?_) ?_) (by omega) <;> rw [Nat.shiftLeft_eq] <;> omega

theorem parseLen_lt {c : UInt8} {b t : Bytes} {n : Nat} (h : parseLen c b = .ok (n, t)) : n < 2 ^ 32 := by
  unfold parseLen at h
  split at h
  · cases h; have := (c &&& 31).toNat_lt; omega
  split at h
  · exact uint8_lt h
  split at h
  · exact uint16_lt h
  split at h
  · exact uint32_lt h
  · cases h

theorem parseExtLen_lt {c : UInt8} {b t : Bytes} {n : Nat} (h : parseExtLen c b = .ok (n, t)) : n < 2 ^ 32 := by
  unfold parseExtLen at h
  iterate 5
    split at h
    · cases h; decide
  split at h
  · exact uint8_lt h
  split at h
  · exact uint16_lt h
  split at h
  · exact uint32_lt h
  · cases h

theorem parseMapLen_lt {c : UInt8} {b t : Bytes} {n : Nat} (h : parseMapLen c b = .ok (n, t)) : n < 2 ^ 32 := by
  unfold parseMapLen at h
  split at h
  · cases h; have := (c &&& 15).toNat_lt; omega
  split at h
  · exact uint16_lt (mapErr_ok h)
  split at h
  · exact uint32_lt (mapErr_ok h)
  · cases h

theorem parseArrLen_lt {c : UInt8} {b t : Bytes} {n : Nat} (h : parseArrLen c b = .ok (n, t)) : n < 2 ^ 32 := by
  unfold parseArrLen at h
  split at h
  · cases h; have := (c &&& 15).toNat_lt; omega
  split at h
  · exact uint16_lt h
  split at h
  · exact uint32_lt h
  · cases h

theorem parseStr_lt {c : UInt8} {b t s : Bytes} (h : parseStr c b = .ok (s, t)) : s.length < 2 ^ 32 := by
  unfold parseStr at h
  obtain ⟨⟨n, b1⟩, h1, h⟩ := Res.bind_eq_ok.1 h
  have := parseLen_lt (mapErr_ok h1)
  dsimp only at h
  split at h
  · cases h; simp
  split at h
  · cases h; simp; omega
  · cases h

theorem elems_given {p : Bytes → Res (Val × Bytes)} (hp : ∀ b v t, p b = .ok (v, t) → Given E v) : ∀ (n : Nat) (b : Bytes) (vs : List Val) (t : Bytes),
    parseElems p n b = .ok (vs, t) → vs.length = n ∧ GivenL E vs
  | 0, _, _, _, e => by cases e; exact ⟨rfl, trivial⟩
  | n + 1, b, vs, t, e => by
    rw [parseElems] at e
    obtain ⟨⟨v, b1⟩, h1, e⟩ := Res.bind_eq_ok.1 e
    obtain ⟨⟨ws, b2⟩, h2, e⟩ := Res.bind_eq_ok.1 e
    cases e
    obtain ⟨hl, hs⟩ := elems_given hp n b1 ws _ h2
    exact ⟨by simp [hl], hp _ _ _ h1, hs⟩

theorem setKey_put (kvs : List (Bytes × Val)) (k : Bytes) (v : Val) : setKeyValueObj E true kvs k v = (true, Assoc.put E.keyMatch kvs k v) := by
  rw [Assoc.put_findIdx]
  unfold setKeyValueObj indexByName findKey unescKeys
  simp only [Bool.not_true, Bool.false_and, Bool.false_eq_true, if_false, if_true]
  cases kvs.findIdx? (fun kv => E.keyMatch kv.1 k) <;> rfl

theorem put_length (kvs : List (Bytes × Val)) (k : Bytes) (v : Val) : (Assoc.put E.keyMatch kvs k v).length ≤ kvs.length + 1 := by
  have := congrArg List.length (Assoc.put_keys (m := E.keyMatch) kvs k v)
  rw [List.length_map] at this
  rw [this]
  split <;> simp

theorem put_ne_nil (kvs : List (Bytes × Val)) (k : Bytes) (v : Val) : (Assoc.put E.keyMatch kvs k v).isEmpty = false := by
  cases kvs with
  | nil => rfl
  | cons x kvs => obtain ⟨a, b⟩ := x; rw [Assoc.put]; split <;> rfl

theorem put_given : ∀ {kvs : List (Bytes × Val)} {k : Bytes} {v : Val}, GivenM E kvs → k.length < 2 ^ 32 → Given E v → GivenM E (Assoc.put E.keyMatch kvs k v)
  | [], _, _, _, hk, hv => ⟨⟨hk, hv⟩, trivial⟩
  | (a, w) :: kvs, k, v, g, hk, hv => by
    rw [Assoc.put]
    split
    · exact ⟨⟨g.1.1, hv⟩, g.2⟩
    · exact ⟨g.1, put_given g.2 hk hv⟩

theorem members_given {p : Bytes → Res (Val × Bytes)} (hp : ∀ b v t, p b = .ok (v, t) → Given E v) : ∀ (n : Nat) (kvs : List (Bytes × Val)) (b : Bytes) (v : Val) (t : Bytes),
    kvs.isEmpty = false → kvs.length + n < 2 ^ 32 → Assoc.Distinct E.keyMatch kvs → GivenM E kvs → parseMembers E p n true kvs b = .ok (v, t) → Given E v
  | 0, kvs, _, _, _, h0, h1, h2, h3, e => by cases e; exact ⟨by simp [h0], by simpa using h1, h2, h3⟩
  | n + 1, kvs, b, v, t, h0, h1, h2, h3, e => by
    rw [parseMembers] at e
    obtain ⟨⟨c, b1⟩, -, e⟩ := Res.bind_eq_ok.1 e
    obtain ⟨⟨k, b2⟩, e2, e⟩ := Res.bind_eq_ok.1 e
    obtain ⟨⟨w, b3⟩, e3, e⟩ := Res.bind_eq_ok.1 e
    dsimp only at e
    rw [setKey_put] at e
    have hl := put_length (E := E) kvs k w
    exact members_given hp n _ b3 v t (put_ne_nil _ _ _) (by omega) (Assoc.put_distinct h2 k w) (put_given h3 (parseStr_lt e2) (hp _ _ _ e3)) e

theorem first_given {p : Bytes → Res (Val × Bytes)} (hp : ∀ b v t, p b = .ok (v, t) → Given E v) (n : Nat) (b : Bytes) (v : Val) (t : Bytes) (hn : n ≠ 0) (h : n < 2 ^ 32)
    (e : parseMembers E p n false [] b = .ok (v, t)) : Given E v := by
  obtain ⟨n, rfl⟩ := Nat.exists_eq_succ_of_ne_zero hn
  rw [Nat.succ_eq_add_one, parseMembers] at e
  obtain ⟨⟨c, b1⟩, -, e⟩ := Res.bind_eq_ok.1 e
  obtain ⟨⟨k, b2⟩, e2, e⟩ := Res.bind_eq_ok.1 e
  obtain ⟨⟨w, b3⟩, e3, e⟩ := Res.bind_eq_ok.1 e
  have e0 : setKeyValueObj E false [] k w = (true, [(k, w)]) := by
    unfold setKeyValueObj indexByName findKey unescKeys
    cases k.contains 92 <;> rfl
  dsimp only at e
  rw [e0] at e
  exact members_given hp n [(k, w)] b3 v t rfl (by simp; omega) (by simp [Assoc.Distinct]) ⟨⟨parseStr_lt e2, hp _ _ _ e3⟩, trivial⟩ e

theorem given (E : Env) : ∀ (f : Nat) (b : Bytes) (v : Val) (t : Bytes), parseValue E f b = .ok (v, t) → Given E v
  | 0, _, _, _, h => by cases h
  | f + 1, [], _, _, h => by simp [parseValue, readCode] at h
  | f + 1, c :: b, v, t, h => by
    have hp := given E f
    have one : ∀ (x : Res (Nat × Bytes)) (g : Nat → Val), (∀ a, Given E (g a)) → ∀ r, (x >>= fun a => .ok (g a.1, a.2)) = .ok r → Given E r.1 := by
      intro x g hg r h
      obtain ⟨a, -, h⟩ := Res.bind_eq_ok.1 h
      cases h
      exact hg _
    have zero : ∀ (v : Val) (t : Bytes), Given E v → ∀ r, (Res.ok (v, t)) = .ok r → Given E r.1 := by
      intro v t hv r h; cases h; exact hv
    have key : ∀ r, parseValue E (f + 1) (c :: b) = .ok r → Given E r.1 := by
      unfold parseValue
      simp only [readCode, Res.bind_ok]
      refine ite_ok' (P := fun r : Val × Bytes => Given E r.1) ?_ (fun _ => ite_ok' ?_ (fun _ => ite_ok' ?_ (fun _ => ite_ok' (zero _ _ rfl) (fun _ => ?_))))
      · intro r h
        obtain ⟨⟨s, b1⟩, h1, h⟩ := Res.bind_eq_ok.1 h
        cases h
        exact parseStr_lt h1
      · intro r h
        unfold parseArray at h
        obtain ⟨⟨n, b1⟩, h1, h⟩ := Res.bind_eq_ok.1 h
        obtain ⟨⟨vs, b2⟩, h2, h⟩ := Res.bind_eq_ok.1 h
        cases h
        obtain ⟨hl, hs⟩ := elems_given hp _ _ _ _ h2
        exact ⟨by rw [hl]; exact parseArrLen_lt h1, hs⟩
      · rintro ⟨v, t⟩ h
        unfold parseObject at h
        obtain ⟨⟨n, b1⟩, h1, h⟩ := Res.bind_eq_ok.1 h
        dsimp only at h
        split at h
        · cases h; exact ⟨rfl, by decide, by simp [Assoc.Distinct], trivial⟩
        · rename_i hn
          split at h
          · cases h
          · split at h
            · cases h
            · exact first_given hp n _ _ _ hn (parseMapLen_lt h1) h
      refine ite_ok' (one _ (fun u => .int 0 (BitVec.ofNat 64 u)) fun _ => rfl) (fun _ => ?_)
      refine ite_ok' (one _ (fun u => .int 0 (sx8 u)) fun _ => rfl) (fun _ => ?_)
      refine ite_ok' (one _ (fun u => .int 0 (BitVec.ofNat 64 u)) fun _ => rfl) (fun _ => ?_)
      refine ite_ok' (one _ (fun u => .int 0 (sx16 u)) fun _ => rfl) (fun _ => ?_)
      refine ite_ok' (one _ (fun u => .int 0 (BitVec.ofNat 64 u)) fun _ => rfl) (fun _ => ?_)
      refine ite_ok' (one _ (fun u => .int 0 (sx32 u)) fun _ => rfl) (fun _ => ?_)
      refine ite_ok' (one _ (fun u => .int 0 (BitVec.ofNat 64 u)) fun _ => rfl) (fun _ => ?_)
      refine ite_ok' (one _ (fun u => Val.ofF32 (BitVec.ofNat 32 u)) fun _ => by simp [Val.ofF32, Given]) (fun _ => ite_ok' (one _ (fun u => .double (BitVec.ofNat 64 u)) fun _ => trivial) (fun _ => ?_))
      refine ite_ok' (zero _ _ trivial) (fun _ => ite_ok' (zero _ _ trivial) (fun _ => ite_ok' (zero _ _ trivial) (fun _ => ?_)))
      refine ite_ok' ?_ (fun _ => ite_ok' ?_ (fun _ => zero _ _ trivial))
      · intro r h
        unfold parseBin at h
        obtain ⟨⟨n, b1⟩, h1, h⟩ := Res.bind_eq_ok.1 h
        have := parseLen_lt h1
        dsimp only at h
        split at h
        · cases h; exact ⟨rfl, by simp; omega⟩
        · cases h
      · intro r h
        unfold parseExt at h
        obtain ⟨⟨n, b1⟩, h1, h⟩ := Res.bind_eq_ok.1 h
        have := parseExtLen_lt h1
        dsimp only at h
        split at h
        · cases h
        obtain ⟨tl, -, h⟩ := Res.bind_eq_ok.1 h
        split at h
        · cases h
        split at h
        · obtain ⟨x, -, h⟩ := Res.bind_eq_ok.1 h
          cases h; trivial
        · cases h
          refine ⟨rfl, _, _, rfl, ?_⟩
          simp; omega
    exact key _ h

/-- **C133** for MessagePack. -/
theorem C133_msgpack_partial (E : Env) (b : Bytes) (v : Val) (h : newValueFromMsgPack E b = .ok v) (hk : Leaves (Kept E) v) : newValueFromMsgPack E (value2MsgPack E v) = .ok v := by
  have g : ∀ b v, newValueFromMsgPack E b = .ok v → Given E v := by
    intro b v h
    unfold newValueFromMsgPack parse at h
    obtain ⟨⟨n, o⟩, e, h⟩ := Res.bind_eq_ok.1 h
    cases h
    exact given E _ _ _ _ e
  have gv := g b v h
  obtain ⟨hs, hd⟩ := given_supported v gv hk
  obtain ⟨w, hw, e⟩ := C03_roundtrip E v [] hs hd
  rw [List.append_nil] at e
  have e' : newValueFromMsgPack E (value2MsgPack E v) = .ok w := by unfold newValueFromMsgPack; rw [e]; rfl
  rw [e', given_same v w gv hk (g _ _ e') hw]

end MsgPack

/-! ## JSON -/

namespace Json
open Spec

/-- The leaves JSON, as this package writes it, carries: floats whose text is read as the float, times whose text is read as the time; not NAN and INF, which are not written (C61). -/
def Kept (E : Env) (escDT : Bool) : Val → Prop
  | .float c => NumLike (E.fmtFloat (E.f32to64 (lo32 c))) ∧ denote E (.num (E.fmtFloat (E.f32to64 (lo32 c)))) = .float c
  | .dateTime c => StrBody (timeBody E escDT c) ∧ E.jsonTime (timeBody E escDT c) = some c
  | .nan | .inf | .nil => False
  | _ => True

variable {E : Env}

mutual
theorem item_again (I : IntLaw E) (a escDT : Bool) : ∀ {v : Val} {t r : Bytes}, Item E v t r → Leaves (Kept E escDT) v →
    Enc E (styleOf a) escDT v ∧ denote E (data E (styleOf a) escDT v) = v
  | _, _, _, .null _, _ | _, _, _, .tru _, _ | _, _, _, .fls _, _ => ⟨by rw [Enc]; trivial, rfl⟩
  | _, _, _, .str s _ h, k => by
    rw [denote] at k ⊢
    cases ht : E.jsonTime s with
    | none => exact ⟨by rw [Enc]; exact h, by simp only [data, denote, ht]⟩
    | some c =>
      rw [ht] at k
      obtain ⟨k1, k2⟩ : StrBody (timeBody E escDT c) ∧ E.jsonTime (timeBody E escDT c) = some c := k
      exact ⟨by rw [Enc]; exact k1, by simp only [data, denote, k2]⟩
  | _, _, _, .num t c r h _, k => by
    rw [denote] at k ⊢
    split
    · rename_i h46
      rw [if_pos h46] at k
      rw [Val.ofF32] at k ⊢
      exact ⟨by rw [Enc]; exact k.1, by rw [data]; exact k.2⟩
    · exact ⟨by rw [Enc]; trivial, by rw [data, denote, if_neg (decInt_no_dot _), I]; rfl⟩
  | _, _, _, .inf _ _ _ _ _, k | _, _, _, .nan _ _ _ _ _ _, k | _, _, _, .three _ _ _ _ _, k => k.elim
  | _, _, _, .arr0 _ _ _, _ => ⟨by rw [Enc, EncL]; trivial, rfl⟩
  | _, _, _, .obj0 _ _ _, _ => ⟨by rw [Enc, EncM]; trivial, rfl⟩
  | _, _, _, .arr xs t r h, k => by
    obtain ⟨h1, h2⟩ := items_again I a escDT h k
    exact ⟨by rw [Enc]; exact h1, by rw [data, denote, h2]⟩
  | _, _, _, .obj kvs t r h, k => by
    obtain ⟨h1, h2⟩ := members_again I a escDT h k
    exact ⟨by rw [Enc]; exact h1, by rw [data, denote, h2]⟩
theorem items_again (I : IntLaw E) (a escDT : Bool) : ∀ {vs : List Val} {t r : Bytes}, Items E vs t r → LeavesL (Kept E escDT) vs →
    EncL E (styleOf a) escDT vs ∧ denoteL E (dataL E (styleOf a) escDT vs) = vs
  | _, _, _, .last w1 t w2 r v _ _ h, k => by
    obtain ⟨h1, h2⟩ := item_again I a escDT h k.1
    exact ⟨by rw [EncL, EncL]; exact ⟨.inr h1, trivial⟩, by rw [dataL, dataL, denoteL, denoteL, h2]⟩
  | _, _, _, .more w1 t w2 u r v vs _ _ h hs, k => by
    obtain ⟨h1, h2⟩ := item_again I a escDT h k.1
    obtain ⟨h3, h4⟩ := items_again I a escDT hs k.2
    exact ⟨by rw [EncL]; exact ⟨.inr h1, h3⟩, by rw [dataL, denoteL, h2, h4]⟩
theorem members_again (I : IntLaw E) (a escDT : Bool) : ∀ {kvs : List (Bytes × Val)} {t r : Bytes}, Members E kvs t r → LeavesM (Kept E escDT) kvs →
    EncM E (styleOf a) escDT false kvs ∧ denoteM E (dataM E (styleOf a) escDT false kvs) = kvs
  | _, _, _, .last w1 n w2 w3 t w4 r v _ _ _ _ hn h, k => by
    obtain ⟨h1, h2⟩ := item_again I a escDT h k.1
    have hk : keyText E (styleOf a) false n = n := by rw [keyText_styleOf]; rfl
    exact ⟨by rw [EncM, EncM, hk]; exact ⟨hn, h1, trivial⟩, by rw [dataM, dataM, denoteM, denoteM, h2, hk]⟩
  | _, _, _, .more w1 n w2 w3 t w4 u r v kvs _ _ _ _ hn h hs, k => by
    obtain ⟨h1, h2⟩ := item_again I a escDT h k.1
    obtain ⟨h3, h4⟩ := members_again I a escDT hs k.2
    have hk : keyText E (styleOf a) false n = n := by rw [keyText_styleOf]; rfl
    exact ⟨by rw [EncM, hk]; exact ⟨hn, h1, h3⟩, by rw [dataM, denoteM, h2, h4, hk]⟩
end

/-- **C133** for JSON, compact and indented. A number alone is excluded (it is read as nil, C25). -/
theorem C133_json_partial (E : Env) (I : IntLaw E) (a escDT : Bool) (b : Bytes) (v : Val) (h : newValueFromJson E b = .ok v) (hk : Leaves (Kept E escDT) v)
    (hn : v.vt ≠ .int ∧ v.vt ≠ .float) :
    ∃ t1 t2, value2Json E (styleOf a) escDT v = .ok t1 ∧ value2FormatJson E (styleOf a) escDT v = .ok t2 ∧ newValueFromJson E t1 = .ok v ∧ newValueFromJson E t2 = .ok v := by
  rcases (newValue_iff E b v).1 h with ⟨w1, t, w2, hw1, hw2, rfl, hi⟩ | ⟨rfl, _⟩
  · obtain ⟨he, hd⟩ := item_again I a escDT hi hk
    obtain ⟨t1, h1, e1⟩ := toJson_text E (styleOf a) escDT v he []
    obtain ⟨t2, h2, e2⟩ := format_text E (styleOf a) escDT v he 0 []
    have hnum : ∀ s, data E (styleOf a) escDT v ≠ .num s := by
      intro s hs
      rw [hs, denote] at hd
      split at hd
      · exact hn.2 (by rw [← hd]; rfl)
      · exact hn.1 (by rw [← hd]; rfl)
    refine ⟨t1, t2, e1, e2, ?_, ?_⟩
    · rw [← hd]; simpa using C18_decodes E _ [] t1 [] ws_nil ws_nil h1 hnum
    · rw [← hd]; simpa using C18_decodes E _ [] t2 [] ws_nil ws_nil h2 hnum
  · exact hk.elim

end Json

/-! ## BSON -/

namespace Bson
open Spec

/-- The leaves BSON, as this package writes and reads it, carries: ObjectIDs and decimals but no other binaries (C16), no integers from -2^31 to -1 (C14), times that survive milliseconds. -/
def Kept (E : Env) : Val → Prop
  | .bin e _ => e ≠ 0
  | .int e c => e = 17 ∨ 0 ≤ c.toInt ∨ c.toInt < -2 ^ 31
  | .dateTime c => E.ofMilli (E.unixMilli c) = c
  | _ => True

mutual
/-- No object or array is empty. -/
def Full : Val → Prop
  | .arr xs => xs ≠ [] ∧ FullL xs
  | .obj _ kvs => kvs ≠ [] ∧ FullM kvs
  | _ => True
/-- The elements. -/
def FullL : List Val → Prop
  | [] => True
  | v :: vs => Full v ∧ FullL vs
/-- The members. -/
def FullM : List (Bytes × Val) → Prop
  | [] => True
  | (_, v) :: kvs => Full v ∧ FullM kvs
end

mutual
/-- What the reader can give: binaries without extra byte, ObjectIDs, decimals; integers and timestamps; distinct names without NUL that count as unescaped. -/
def Given (E : Env) : Val → Prop
  | .null | .tru | .fls | .double _ | .dateTime _ | .str _ => True
  | .int e _ => e = 0 ∨ e = 17
  | .bin e b => e = 0 ∨ (e = 7 ∧ b.length = 12) ∨ (e = 19 ∧ b.length = 16)
  | .arr xs => GivenL E xs
  | .obj ku kvs => (ku = true ∨ kvs = []) ∧ Assoc.Distinct E.keyMatch kvs ∧ GivenM E kvs
  | _ => False
def GivenL (E : Env) : List Val → Prop
  | [] => True
  | v :: vs => Given E v ∧ GivenL E vs
def GivenM (E : Env) : List (Bytes × Val) → Prop
  | [] => True
  | (k, v) :: kvs => ((0 : UInt8) ∉ k ∧ Given E v) ∧ GivenM E kvs
end

variable {E : Env}

theorem givenL_all : ∀ {xs : List Val}, GivenL E xs ↔ ∀ x ∈ xs, Given E x
  | [] => by simp [GivenL]
  | x :: xs => by simp only [GivenL, givenL_all (xs := xs), List.mem_cons, forall_eq_or_imp]

theorem givenM_all : ∀ {kvs : List (Bytes × Val)}, GivenM E kvs ↔ ∀ kv ∈ kvs, (0 : UInt8) ∉ kv.1 ∧ Given E kv.2
  | [] => by simp [GivenM]
  | (k, v) :: kvs => by simp only [GivenM, givenM_all (kvs := kvs), List.mem_cons, forall_eq_or_imp]

mutual
theorem given_survives : ∀ v, Given E v → Leaves (Kept E) v → Full v → Survives E v
  | .null, _, _, _ | .tru, _, _, _ | .fls, _, _, _ | .double _, _, _, _ | .dateTime _, _, _, _ | .str _, _, _, _ => trivial
  | .int _ _, _, k, _ => k
  | .bin e _, g, k, _ => by
    rcases g with g | g | g
    · exact absurd g k
    · exact .inl g
    · exact .inr g
  | .arr xs, g, k, f => ⟨f.1, given_survivesL xs g k f.2⟩
  | .obj ku kvs, g, k, f => by
    obtain ⟨rfl | h, g2, g3⟩ := g
    · exact ⟨f.1, g2, given_survivesM kvs g3 k f.2⟩
    · exact absurd h f.1
  | .nil, g, _, _ | .raw _, g, _, _ | .float _, g, _, _ | .exbin _ _, g, _, _ | .nan, g, _, _ | .inf, g, _, _ => g.elim
theorem given_survivesL : ∀ vs, GivenL E vs → LeavesL (Kept E) vs → FullL vs → SurvivesL E vs
  | [], _, _, _ => trivial
  | v :: vs, g, k, f => ⟨given_survives v g.1 k.1 f.1, given_survivesL vs g.2 k.2 f.2⟩
theorem given_survivesM : ∀ kvs, GivenM E kvs → LeavesM (Kept E) kvs → FullM kvs → SurvivesM E true kvs
  | [], _, _, _ => trivial
  | (_, v) :: vs, g, k, f => ⟨g.1.1, given_survives v g.1.2 k.1 f.1, given_survivesM vs g.2 k.2 f.2⟩
end

mutual
theorem given_same : ∀ v w, Given E v → Leaves (Kept E) v → Full v → Same E v w → w = v
  | .null, _, _, _, _, s | .tru, _, _, _, _, s | .fls, _, _, _, _, s | .double _, _, _, _, _, s | .str _, _, _, _, _, s | .bin _ _, _, _, _, _, s => s
  | .dateTime c, _, _, k, _, s => by
    rw [Same] at s
    have k : E.ofMilli _ = c := k
    rw [s, k]
  | .int e _, _, g, _, _, s => by
    rw [Same] at s
    rcases (show e = 0 ∨ e = 17 from g) with rfl | rfl <;> exact s
  | .arr xs, _, g, k, f, s => by
    obtain ⟨ys, rfl, s⟩ := s
    rw [given_sameL xs ys g k f.2 s]
  | .obj ku kvs, _, g, k, f, s => by
    obtain ⟨ys, rfl, s⟩ := s
    obtain ⟨rfl | h, g2, g3⟩ := g
    · rw [given_sameM kvs ys g3 k f.2 s]
    · exact absurd h f.1
  | .nil, _, g, _, _, _ | .raw _, _, g, _, _, _ | .float _, _, g, _, _, _ | .exbin _ _, _, g, _, _, _ | .nan, _, g, _, _, _ | .inf, _, g, _, _, _ => g.elim
theorem given_sameL : ∀ vs ws, GivenL E vs → LeavesL (Kept E) vs → FullL vs → SameL E vs ws → ws = vs
  | [], _, _, _, _, s => s
  | v :: vs, _, g, k, f, s => by
    obtain ⟨w, ws, rfl, s1, s2⟩ := s
    rw [given_same v w g.1 k.1 f.1 s1, given_sameL vs ws g.2 k.2 f.2 s2]
theorem given_sameM : ∀ vs ws, GivenM E vs → LeavesM (Kept E) vs → FullM vs → SameM E true vs ws → ws = vs
  | [], _, _, _, _, s => s
  | (_, v) :: vs, _, g, k, f, s => by
    obtain ⟨w, ws, rfl, s1, s2⟩ := s
    rw [given_same v w g.1.2 k.1 f.1 s1, given_sameM vs ws g.2 k.2 f.2 s2]
    rfl
end

theorem sliceTo_length {hid b d : Bytes} {n : Nat} (h : sliceTo hid n b = .ok d) : d.length = n := by
  unfold sliceTo at h
  split at h
  · cases h; rename_i hl; rw [List.length_take]; omega
  · cases h

theorem simple_given {hid b : Bytes} {ty : UInt8} : ∀ r : Nat × Val, parseSimple E hid ty b = .ok r → Given E r.2 := by
  have one : ∀ {α : Type} (x : Res α) (f : α → Nat × Val), (∀ a, x = .ok a → Given E (f a).2) → ∀ r, (x >>= fun a => .ok (f a)) = .ok r → Given E r.2 := by
    intro α x f hf r h
    obtain ⟨a, ha, h⟩ := Res.bind_eq_ok.1 h
    cases h
    exact hf a ha
  unfold parseSimple
  refine ite_ok (one _ _ fun _ _ => trivial) (ite_ok ?_ (ite_ok ?_ (ite_ok (one _ _ fun _ h => .inr (.inl ⟨rfl, sliceTo_length h⟩)) (ite_ok (one _ _ ?_) (ite_ok (one _ _ fun _ _ => trivial)
    (ite_ok (one _ _ fun _ _ => .inl rfl) (ite_ok (one _ _ fun _ _ => .inr rfl) (ite_ok (one _ _ fun _ _ => .inl rfl) (ite_ok (one _ _ fun _ h => .inr (.inr ⟨rfl, sliceTo_length h⟩)) ?_)))))))))
  · intro r h
    obtain ⟨n, -, h⟩ := Res.bind_eq_ok.1 h
    dsimp only at h
    split at h
    · cases h
    · obtain ⟨s, -, h⟩ := Res.bind_eq_ok.1 h
      cases h; trivial
  · intro r h
    unfold parseBinary at h
    obtain ⟨n, -, h⟩ := Res.bind_eq_ok.1 h
    obtain ⟨b1, -, h⟩ := Res.bind_eq_ok.1 h
    obtain ⟨sub, -, h⟩ := Res.bind_eq_ok.1 h
    split at h
    · obtain ⟨b2, -, h⟩ := Res.bind_eq_ok.1 h
      obtain ⟨m, -, h⟩ := Res.bind_eq_ok.1 h
      obtain ⟨b3, -, h⟩ := Res.bind_eq_ok.1 h
      split at h
      · cases h
      · obtain ⟨d, -, h⟩ := Res.bind_eq_ok.1 h
        cases h; exact .inl rfl
    · obtain ⟨d, -, h⟩ := Res.bind_eq_ok.1 h
      cases h; exact .inl rfl
  · intro x _
    dsimp only
    split <;> trivial
  · intro r h; cases h; trivial

theorem blank_given (tp : VT) : Given E (blank tp) := by
  cases tp <;> first | trivial | exact ⟨.inr rfl, by simp [Assoc.Distinct], trivial⟩

theorem settle_given (tp : VT) {v : Val} (h : Given E v) : Given E (settle tp v) := by
  unfold settle
  split
  · exact h
  · exact blank_given tp

theorem key_no_zero {b : Bytes} {k : Nat} (h : b.idxOf? 0 = some k) : (0 : UInt8) ∉ b.take k := by
  intro hm
  rw [List.mem_take_iff_getElem] at hm
  obtain ⟨i, hi, he⟩ := hm
  unfold List.idxOf? at h
  rw [List.findIdx?_eq_some_iff_getElem] at h
  obtain ⟨h1, h2, h3⟩ := h
  exact h3 i (by omega) (by simpa using he)

theorem modify_given {kvs : List (Bytes × Val)} {i : Nat} {w : Val} (h : GivenM E kvs) (hw : Given E w) : GivenM E (kvs.modify i (fun kv => (kv.1, w))) := by
  rw [givenM_all] at h ⊢
  intro kv hm
  obtain ⟨j, hj, e⟩ := List.mem_iff_getElem.1 hm
  rw [List.getElem_modify] at e
  rw [List.length_modify] at hj
  have := h _ (List.getElem_mem hj)
  split at e <;> subst e
  · exact ⟨this.1, hw⟩
  · exact this

theorem modify_distinct {kvs : List (Bytes × Val)} {i : Nat} {w : Val} (h : Assoc.Distinct E.keyMatch kvs) : Assoc.Distinct E.keyMatch (kvs.modify i (fun kv => (kv.1, w))) := by
  have : (kvs.modify i (fun kv => (kv.1, w))).map Prod.fst = kvs.map Prod.fst := by
    apply List.ext_getElem
    · simp
    · intro j h1 h2
      simp only [List.getElem_map, List.getElem_modify]
      split <;> rfl
  unfold Assoc.Distinct at h ⊢
  rwa [this]

theorem snoc_given {kvs : List (Bytes × Val)} {k : Bytes} {w : Val} (h : GivenM E kvs) (hk : (0 : UInt8) ∉ k) (hw : Given E w) : GivenM E (kvs ++ [(k, w)]) := by
  rw [givenM_all] at h ⊢
  intro kv hm
  rcases List.mem_append.1 hm with hm | hm
  · exact h kv hm
  · rw [List.mem_singleton] at hm; subst hm; exact ⟨hk, hw⟩

theorem snoc_distinct {kvs : List (Bytes × Val)} {k : Bytes} {w : Val} (h : Assoc.Distinct E.keyMatch kvs) (hf : findKey E kvs k = none) : Assoc.Distinct E.keyMatch (kvs ++ [(k, w)]) := by
  unfold Assoc.Distinct at h ⊢
  unfold findKey at hf
  rw [List.findIdx?_eq_none_iff] at hf
  rw [List.map_append, List.pairwise_append]
  refine ⟨h, by simp, ?_⟩
  intro a ha b hb
  obtain ⟨kv, hkv, rfl⟩ := List.mem_map.1 ha
  simp at hb
  subst hb
  simpa using hf kv hkv

theorem given (E : Env) (hid : Bytes) : ∀ fuel,
    (∀ b ku kvs r, Given E (.obj ku kvs) → parseDoc E hid fuel b ku kvs = .ok r → Given E r.2) ∧
    (∀ b d pi ku kvs v, Given E (.obj ku kvs) → docLoop E hid fuel b d pi ku kvs = .ok v → Given E v) ∧
    (∀ ty b cur r, Given E cur → parseElem E hid fuel ty b cur = .ok r → Given E r.2) ∧
    (∀ b xs r, GivenL E xs → parseArr E hid fuel b xs = .ok r → Given E r.2) ∧
    (∀ b d pi xs v, GivenL E xs → arrLoop E hid fuel b d pi xs = .ok v → Given E v)
  | 0 => by
    refine ⟨?_, ?_, ?_, ?_, ?_⟩ <;> intros <;> simp_all [parseDoc, docLoop, parseElem, parseArr, arrLoop]
  | fuel + 1 => by
    obtain ⟨hd, hdl, he, ha, hal⟩ := given E hid fuel
    refine ⟨?_, ?_, ?_, ?_, ?_⟩
    · intro b ku kvs r hk e
      rw [parseDoc] at e
      split at e
      · cases e
      obtain ⟨n, -, e⟩ := Res.bind_eq_ok.1 e
      split at e
      · cases e
      obtain ⟨o, ho, e⟩ := Res.bind_eq_ok.1 e
      cases e
      exact hdl _ _ _ _ _ _ hk ho
    · intro b d pi ku kvs v hk e
      rw [docLoop] at e
      split at e
      · obtain ⟨ty, -, e⟩ := Res.bind_eq_ok.1 e
        dsimp only at e
        split at e
        · cases e
        rename_i k hidx
        have hz := key_no_zero hidx
        generalize List.take k (List.drop (pi + 1) b) = name at e hz
        obtain ⟨k1, k2, k3⟩ := hk
        rw [indexByName_acc k1] at e
        cases hf : findKey E kvs name with
        | some i =>
          rw [hf] at e
          dsimp only at e
          obtain ⟨⟨n, w⟩, hw, e⟩ := Res.bind_eq_ok.1 e
          have hlt : i < kvs.length := by
            unfold findKey at hf
            rw [List.findIdx?_eq_some_iff_getElem] at hf
            exact hf.1
          have hww : Given E w := by
            refine he _ _ _ _ (settle_given _ ?_) hw
            rw [List.getElem?_eq_getElem hlt]
            exact (givenM_all.1 k3 _ (List.getElem_mem hlt)).2
          have hkv : Given E (.obj true (kvs.modify i (fun kv => (kv.1, w)))) := ⟨.inl rfl, modify_distinct k2, modify_given k3 hww⟩
          dsimp only at e
          split at e
          · cases e; exact hkv
          · exact hdl _ _ _ _ _ _ hkv e
        | none =>
          rw [hf] at e
          dsimp only at e
          obtain ⟨⟨n, w⟩, hw, e⟩ := Res.bind_eq_ok.1 e
          have hkv : Given E (.obj true (kvs ++ [(name, w)])) := ⟨.inl rfl, snoc_distinct k2 hf, snoc_given k3 hz (he _ _ _ _ (blank_given _) hw)⟩
          dsimp only at e
          split at e
          · cases e; exact hkv
          · exact hdl _ _ _ _ _ _ hkv e
      · cases e; exact hk
    · intro ty b cur r hc e
      unfold parseElem at e
      split at e
      · split at e
        · exact ha _ _ _ hc e
        · cases e
      · split at e
        · split at e
          · exact hd _ _ _ _ hc e
          · cases e
        · exact simple_given r e
    · intro b xs r hk e
      rw [parseArr] at e
      obtain ⟨n, -, e⟩ := Res.bind_eq_ok.1 e
      split at e
      · cases e
      obtain ⟨o, ho, e⟩ := Res.bind_eq_ok.1 e
      cases e
      exact hal _ _ _ _ _ hk ho
    · intro b d pi xs v hk e
      rw [arrLoop] at e
      split at e
      · obtain ⟨ty, -, e⟩ := Res.bind_eq_ok.1 e
        dsimp only at e
        split at e
        · cases e
        split at e
        · cases e
        split at e
        · rename_i hi
          obtain ⟨⟨n, w⟩, hw, e⟩ := Res.bind_eq_ok.1 e
          rw [List.getElem?_eq_getElem hi.2] at hw
          have hww := he _ _ _ _ (settle_given _ (givenL_all.1 hk _ (List.getElem_mem hi.2))) hw
          have hxs : ∀ i, GivenL E (xs.set i w) := by
            intro i
            rw [givenL_all] at hk ⊢
            intro x hx
            rcases List.mem_or_eq_of_mem_set hx with h1 | h1
            · exact hk x h1
            · rw [h1]; exact hww
          dsimp only at e
          split at e
          · cases e; exact hxs _
          · exact hal _ _ _ _ _ (hxs _) e
        · obtain ⟨⟨n, w⟩, hw, e⟩ := Res.bind_eq_ok.1 e
          have hxs : GivenL E (xs ++ [w]) := by
            have hw' := he _ _ _ _ (blank_given _) hw
            rw [givenL_all] at hk ⊢
            intro x hx
            rcases List.mem_append.1 hx with h1 | h1
            · exact hk x h1
            · rw [List.mem_singleton.1 h1]; exact hw'
          dsimp only at e
          split at e
          · cases e; exact hxs
          · exact hal _ _ _ _ _ hxs e
      · cases e; exact hk

/-- What is read from BSON is an object. -/
theorem given_obj (E : Env) (hid b : Bytes) (v : Val) (h : newValueFromBson E hid b = .ok v) : Given E v ∧ ∃ ku kvs, v = .obj ku kvs := by
  unfold newValueFromBson at h
  obtain ⟨⟨n, o⟩, e, h⟩ := Res.bind_eq_ok.1 h
  cases h
  refine ⟨(given E hid _).1 _ _ _ _ ⟨.inr rfl, by simp [Assoc.Distinct], trivial⟩ e, ?_⟩
  have loop : ∀ (f : Nat) (b : Bytes) (d pi : Nat) (ku : Bool) (kvs : List (Bytes × Val)) (v : Val), docLoop E hid f b d pi ku kvs = .ok v → ∃ ku kvs, v = .obj ku kvs := by
    intro f
    induction f with
    | zero => intro b d pi ku kvs v e; simp [docLoop] at e
    | succ f ih =>
      intro b d pi ku kvs v e
      rw [docLoop] at e
      split at e
      · obtain ⟨ty, -, e⟩ := Res.bind_eq_ok.1 e
        dsimp only at e
        split at e
        · cases e
        split at e
        · obtain ⟨⟨n, w⟩, hw, e⟩ := Res.bind_eq_ok.1 e
          dsimp only at e
          split at e
          · cases e; exact ⟨_, _, rfl⟩
          · exact ih _ _ _ _ _ _ e
        · obtain ⟨⟨n, w⟩, hw, e⟩ := Res.bind_eq_ok.1 e
          dsimp only at e
          split at e
          · cases e; exact ⟨_, _, rfl⟩
          · exact ih _ _ _ _ _ _ e
      · cases e; exact ⟨_, _, rfl⟩
  rw [parseDoc] at e
  split at e
  · cases e
  obtain ⟨n', -, e⟩ := Res.bind_eq_ok.1 e
  split at e
  · cases e
  obtain ⟨o', ho, e⟩ := Res.bind_eq_ok.1 e
  cases e
  exact loop _ _ _ _ _ _ _ ho

/-- **C133** for BSON. -/
theorem C133_bson_partial (E : Env) (hE : IndexLaw E) (hid hid' b : Bytes) (v : Val) (h : newValueFromBson E hid b = .ok v) (hk : Leaves (Kept E) v) (hf : Full v) :
    ∃ bs, value2Bson E v [] = .ok bs ∧ (bs.length < 2 ^ 31 → newValueFromBson E hid' bs = .ok v) := by
  obtain ⟨g, ku, kvs, rfl⟩ := given_obj E hid b v h
  have hs := given_survives _ g hk hf
  have hd := C12_document E ku kvs [] (survives_writable E _ hs)
  rw [List.nil_append] at hd
  refine ⟨_, hd, fun hl => ?_⟩
  obtain ⟨bs, w, e, er, hw⟩ := C13_roundtrip_partial E hE hid' [] ku kvs hs hl
  rw [hd] at e
  cases e
  rw [List.append_nil] at er
  rw [er, given_same _ _ g hk hf hw]

end Bson

/-! ## Where it fails -/

/-- The element the byte 0xc1 makes (nil) comes back as null. -/
theorem C133_msgpack_nil (E : Env) : MsgPack.newValueFromMsgPack E [0x91, 0xc1] = .ok (.arr [.nil]) ∧
    MsgPack.newValueFromMsgPack E (MsgPack.value2MsgPack E (.arr [.nil])) = .ok (.arr [.null]) := ⟨rfl, rfl⟩

/-- An extension of one byte comes back as another one: type 5 with the byte 7 as type 0xc7 with the byte 1. -/
theorem C133_msgpack_fixext (E : Env) : MsgPack.newValueFromMsgPack E [0xd4, 5, 7] = .ok (.exbin 0 [5, 7]) ∧
    MsgPack.newValueFromMsgPack E (MsgPack.value2MsgPack E (.exbin 0 [5, 7])) = .ok (.exbin 0 [0xc7, 1]) := ⟨rfl, rfl⟩

/-- `[inf]` comes back as `[]`. -/
theorem C133_json_inf (E : Env) : Json.newValueFromJson E [91, 105, 110, 102, 93] = .ok (.arr [.inf]) ∧
    Json.value2Json E .onlyAnsi false (.arr [.inf]) = .ok [91, 93] ∧ Json.newValueFromJson E [91, 93] = .ok (.arr []) := ⟨rfl, rfl, rfl⟩

/-- The number in `7 ` comes back as nil: it is written without the space, and a number that ends the input is not kept. -/
theorem C133_json_number (E : Env) (I : Json.Spec.IntLaw E) : Json.newValueFromJson E [55, 32] = .ok (.int 0 7) ∧
    Json.value2Json E .onlyAnsi false (.int 0 7) = .ok [55] ∧ Json.newValueFromJson E [55] = .ok .nil := by
  have h7 : E.strToInt [55] = some 7 := I 7
  refine ⟨?_, rfl, rfl⟩
  have : Json.newValueFromJson E [55, 32] = .ok (Json.Spec.denote E (.num [55])) := rfl
  rw [this, Json.Spec.denote, if_neg (by decide), h7]
  rfl

/-- The 64-bit integer -1 comes back as 4294967295. -/
theorem C133_bson_negative : Bson.newValueFromBson envEx [] [16, 0, 0, 0, 0x12, 97, 0, 255, 255, 255, 255, 255, 255, 255, 255, 0] = .ok (.obj true [([97], .int 0 (-1))]) ∧
    Bson.value2Bson envEx (.obj true [([97], .int 0 (-1))]) [] = .ok [12, 0, 0, 0, 0x10, 97, 0, 255, 255, 255, 255, 0] ∧
    Bson.newValueFromBson envEx [] [12, 0, 0, 0, 0x10, 97, 0, 255, 255, 255, 255, 0] = .ok (.obj true [([97], .int 0 4294967295)]) := by
  decide +kernel

/-- A binary of two bytes is read with three and comes back with four. -/
theorem C133_bson_binary : Bson.newValueFromBson envEx [] [15, 0, 0, 0, 5, 97, 0, 2, 0, 0, 0, 0, 7, 8, 0] = .ok (.obj true [([97], .bin 0 [0, 7, 8])]) ∧
    Bson.value2Bson envEx (.obj true [([97], .bin 0 [0, 7, 8])]) [] = .ok [16, 0, 0, 0, 5, 97, 0, 3, 0, 0, 0, 0, 0, 7, 8, 0] ∧
    Bson.newValueFromBson envEx [] [16, 0, 0, 0, 5, 97, 0, 3, 0, 0, 0, 0, 0, 7, 8, 0] = .ok (.obj true [([97], .bin 0 [0, 0, 7, 8])]) := by
  decide +kernel

/-- A document whose length field says 4 is read as the empty object, which is written as a document that is refused. -/
theorem C133_bson_empty : Bson.newValueFromBson envEx [] [4, 0, 0, 0, 0] = .ok (.obj false []) ∧
    Bson.value2Bson envEx (.obj false []) [] = .ok [5, 0, 0, 0, 0] ∧ Bson.newValueFromBson envEx [] [5, 0, 0, 0, 0] = .err .invalidBson := by
  decide +kernel

/-! ## The theorems are not about nothing -/

/-- `C133_msgpack_partial` for an array of an integer, an extension of three bytes, an empty and another object. -/
example : ∃ v, MsgPack.newValueFromMsgPack envEx [0x94, 7, 0xc7, 3, 5, 1, 2, 3, 0x80, 0x81, 0xa1, 97, 0xc3] = .ok v ∧ Leaves (MsgPack.Kept envEx) v ∧
    v = .arr [.int 0 7, .exbin 0 [5, 1, 2, 3], .obj false [], .obj true [([97], .tru)]] :=
  ⟨.arr [.int 0 7, .exbin 0 [5, 1, 2, 3], .obj false [], .obj true [([97], .tru)]], by decide +kernel, ⟨trivial, ⟨by decide, by decide⟩, trivial, ⟨trivial, trivial⟩, trivial⟩, rfl⟩

/-- `C133_json_partial` for `{"a":[null,-7]}`. -/
example : ∃ v, Json.newValueFromJson envEx [123, 34, 97, 34, 58, 91, 110, 117, 108, 108, 44, 45, 55, 93, 125] = .ok v ∧ Leaves (Json.Kept envEx false) v := by
  refine ⟨.obj false [([97], .arr [.null, .int 0 (-7)])], by decide +kernel, ⟨trivial, trivial, trivial⟩, trivial⟩

/-- `C133_bson_partial` for a document with an array. -/
example : ∃ v, Bson.newValueFromBson envEx [] [20, 0, 0, 0, 4, 97, 0, 12, 0, 0, 0, 0x10, 48, 0, 7, 0, 0, 0, 0, 0] = .ok v ∧ Leaves (Bson.Kept envEx) v ∧ Bson.Full v := by
  refine ⟨.obj true [([97], .arr [.int 0 7])], by decide +kernel, ⟨⟨.inr (.inl (by decide)), trivial⟩, trivial⟩, by simp, ⟨by simp, trivial, trivial⟩, trivial⟩

end Dxs
