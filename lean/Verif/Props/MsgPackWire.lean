import Verif.MsgPack.Stuck
import Verif.Props.MsgPack
import Verif.EnvEx

/-! # C135: exactly what the MessagePack decoder accepts, and as what

`NewValueFromMsgPack` (msgpackparse.go:487-499) against the grammar of MsgPack/Wire.lean, in both directions; without the marked irregularities that grammar is the specification of MsgPack/Spec.lean. -/

namespace Dxs.MsgPack
open Spec
variable {E : Env}

/-- **C135**: the decoder gives `v` and leaves `r` exactly when the input is, before `r`, an item of the grammar that stands for `v` there. -/
theorem C135_exact (E : Env) (b : Bytes) (v : Val) (r : Bytes) : parse E b = .ok (v, r) ↔ ∃ t, b = t ++ r ∧ Wire E true v t r := parse_iff E b v r

/-- C135 for the exported function, which drops what is left. -/
theorem C135_value (E : Env) (b : Bytes) (v : Val) : newValueFromMsgPack E b = .ok v ↔ ∃ t r, b = t ++ r ∧ Wire E true v t r := by
  unfold newValueFromMsgPack
  constructor
  · intro h
    obtain ⟨⟨w, r⟩, h1, h2⟩ := Res.bind_eq_ok.1 h
    cases h2
    obtain ⟨t, h⟩ := (parse_iff E b v r).1 h1
    exact ⟨t, r, h⟩
  · rintro ⟨t, r, h⟩
    rw [(parse_iff E b v r).2 ⟨t, h⟩]; rfl

/-- The grammar is not ambiguous: an input begins with at most one item, which stands for one value. -/
theorem C135_one (E : Env) (v w : Val) (t u r s : Bytes) (h : t ++ r = u ++ s) (h1 : Wire E true v t r) (h2 : Wire E true w u s) : v = w ∧ t = u := by
  have e1 := (parse_iff E (t ++ r) v r).2 ⟨t, rfl, h1⟩
  have e2 := (parse_iff E (t ++ r) w s).2 ⟨u, h, h2⟩
  rw [e1] at e2
  cases e2
  exact ⟨rfl, List.append_cancel_right h⟩

mutual
theorem strict_spec : ∀ {v : Val} {t r : Bytes}, Wire E false v t r → ∃ d, Enc d t ∧ Fits d ∧ Denotes E d v
  | _, _, _, .spec d _ _ _ _ h2 h3 h4 => ⟨d, h2, h3, h4⟩
  | _, _, _, .arr h vs t _ hh hw => by
    obtain ⟨ds, hl, h1, h2, h3⟩ := strict_specs hw
    exact ⟨.arr ds, ⟨h, t, by rw [hl]; exact hh, h1, rfl⟩, h2, vs, rfl, h3⟩
  | _, _, _, .map0 h _ hh => ⟨.map [], ⟨h, [], hh, rfl, by simp⟩, trivial, false, [], rfl, by simp, rfl⟩
  | _, _, _, .map h kh k w u kvs t _ hh hk hw hp => by
    obtain ⟨d, e1, e2, e3⟩ := strict_spec hw
    obtain ⟨ds, hl, h1, h2, h3⟩ := strict_pairs hp
    exact ⟨.map ((k, d) :: ds), ⟨h, kh ++ k ++ u ++ t, by rw [List.length_cons, hl]; exact hh, ⟨kh, u, t, hk, e1, h1, rfl⟩, by simp⟩, ⟨e2, h2⟩, true, (k, w) :: kvs, rfl, fun _ => rfl, w, kvs, rfl, e3, h3⟩
theorem strict_specs : ∀ {vs : List Val} {t r : Bytes}, Wires E false vs t r → ∃ ds : List MData, ds.length = vs.length ∧ EncL ds t ∧ FitsL ds ∧ DenotesL E ds vs
  | _, _, _, .nil _ => ⟨[], rfl, rfl, trivial, rfl⟩
  | _, _, _, .cons v vs t u _ hw hs => by
    obtain ⟨d, e1, e2, e3⟩ := strict_spec hw
    obtain ⟨ds, hl, h1, h2, h3⟩ := strict_specs hs
    exact ⟨d :: ds, by simp [hl], ⟨t, u, e1, h1, rfl⟩, ⟨e2, h2⟩, v, vs, rfl, e3, h3⟩
theorem strict_pairs : ∀ {kvs : List (Bytes × Val)} {t r : Bytes}, Pairs E false kvs t r → ∃ ds : List (Bytes × MData), ds.length = kvs.length ∧ EncM ds t ∧ FitsM ds ∧ DenotesM E ds kvs
  | _, _, _, .nil _ => ⟨[], rfl, rfl, trivial, rfl⟩
  | _, _, _, .cons k v kvs h t u _ hk hw hs => by
    obtain ⟨d, e1, e2, e3⟩ := strict_spec hw
    obtain ⟨ds, hl, h1, h2, h3⟩ := strict_pairs hs
    exact ⟨(k, d) :: ds, by simp [hl], ⟨h, t, u, hk.elim id (fun h => by cases h.1), e1, h1, by simp⟩, ⟨e2, h2⟩, v, kvs, rfl, e3, h3⟩
end

theorem leaf_denotes (E : Env) (d : MData) (h : leaf d = true) (hf : Fits d) : ∃ v, Denotes E d v := by
  cases d with
  | arr | map => cases h
  | int n =>
    refine ⟨_, BitVec.ofInt 64 n, rfl, ?_⟩
    obtain ⟨h1, h2⟩ := hf
    rw [BitVec.toInt_ofInt, Int.bmod_def]
    split <;> omega
  | _ => exact ⟨_, rfl⟩

mutual
theorem spec_strict (E : Env) : ∀ (d : MData) (t r : Bytes), Enc d t → Fits d → ∃ v, Denotes E d v ∧ Wire E false v t r
  | .arr xs, _, r, he, hf => by
    obtain ⟨h, t, hh, he, rfl⟩ := he
    obtain ⟨vs, hl, hd, hw⟩ := specs_strict E xs t r he hf
    exact ⟨_, ⟨vs, rfl, hd⟩, .arr _ _ _ _ (by rw [hl]; exact hh) hw⟩
  | .map [], _, r, he, _ => by
    obtain ⟨h, t, hh, he, rfl⟩ := he
    have : t = [] := he
    subst this
    rw [List.append_nil]
    exact ⟨_, ⟨false, [], rfl, by simp, rfl⟩, .map0 _ _ hh⟩
  | .map ((k, d) :: ds), _, r, he, hf => by
    obtain ⟨h, _, hh, ⟨kh, u, t, hk, he, hes, rfl⟩, rfl⟩ := he
    obtain ⟨w, hd, hw⟩ := spec_strict E d u (t ++ r) he hf.1
    obtain ⟨kvs, hl, hds, hws⟩ := pairs_strict E ds t r hes hf.2
    refine ⟨_, ⟨true, (k, w) :: kvs, rfl, fun _ => rfl, w, kvs, rfl, hd, hds⟩, ?_⟩
    rw [show h ++ (kh ++ k ++ u ++ t) = h ++ (kh ++ (k ++ (u ++ t))) by simp]
    exact .map _ _ _ _ _ _ _ _ (by rw [hl]; exact hh) hk hw hws
  | .nil, _, _, he, hf => by obtain ⟨v, hv⟩ := leaf_denotes E .nil rfl hf; exact ⟨v, hv, .spec _ _ _ _ rfl he hf hv⟩
  | .bool b, _, _, he, hf => by obtain ⟨v, hv⟩ := leaf_denotes E (.bool b) rfl hf; exact ⟨v, hv, .spec _ _ _ _ rfl he hf hv⟩
  | .int n, _, _, he, hf => by obtain ⟨v, hv⟩ := leaf_denotes E (.int n) rfl hf; exact ⟨v, hv, .spec _ _ _ _ rfl he hf hv⟩
  | .f32 x, _, _, he, hf => by obtain ⟨v, hv⟩ := leaf_denotes E (.f32 x) rfl hf; exact ⟨v, hv, .spec _ _ _ _ rfl he hf hv⟩
  | .f64 x, _, _, he, hf => by obtain ⟨v, hv⟩ := leaf_denotes E (.f64 x) rfl hf; exact ⟨v, hv, .spec _ _ _ _ rfl he hf hv⟩
  | .str s, _, _, he, hf => by obtain ⟨v, hv⟩ := leaf_denotes E (.str s) rfl hf; exact ⟨v, hv, .spec _ _ _ _ rfl he hf hv⟩
  | .bin s, _, _, he, hf => by obtain ⟨v, hv⟩ := leaf_denotes E (.bin s) rfl hf; exact ⟨v, hv, .spec _ _ _ _ rfl he hf hv⟩
  | .ext ty p, _, _, he, hf => by obtain ⟨v, hv⟩ := leaf_denotes E (.ext ty p) rfl hf; exact ⟨v, hv, .spec _ _ _ _ rfl he hf hv⟩
  | .ts sec nsec, _, _, he, hf => by obtain ⟨v, hv⟩ := leaf_denotes E (.ts sec nsec) rfl hf; exact ⟨v, hv, .spec _ _ _ _ rfl he hf hv⟩
theorem specs_strict (E : Env) : ∀ (ds : List MData) (t r : Bytes), EncL ds t → FitsL ds → ∃ vs : List Val, vs.length = ds.length ∧ DenotesL E ds vs ∧ Wires E false vs t r
  | [], _, r, he, _ => by
    have := he; rw [EncL] at this; subst this; exact ⟨[], rfl, rfl, .nil _⟩
  | d :: ds, _, r, he, hf => by
    obtain ⟨t, u, h1, h2, rfl⟩ := he
    obtain ⟨v, hd, hw⟩ := spec_strict E d t (u ++ r) h1 hf.1
    obtain ⟨vs, hl, hds, hws⟩ := specs_strict E ds u r h2 hf.2
    exact ⟨v :: vs, by simp [hl], ⟨v, vs, rfl, hd, hds⟩, .cons _ _ _ _ _ hw hws⟩
theorem pairs_strict (E : Env) : ∀ (ds : List (Bytes × MData)) (t r : Bytes), EncM ds t → FitsM ds → ∃ kvs : List (Bytes × Val), kvs.length = ds.length ∧ DenotesM E ds kvs ∧ Pairs E false kvs t r
  | [], _, r, he, _ => by
    have := he; rw [EncM] at this; subst this; exact ⟨[], rfl, rfl, .nil _⟩
  | (k, d) :: ds, _, r, he, hf => by
    obtain ⟨h, t, u, hk, h1, h2, rfl⟩ := he
    obtain ⟨v, hd, hw⟩ := spec_strict E d t (u ++ r) h1 hf.1
    obtain ⟨vs, hl, hds, hws⟩ := pairs_strict E ds u r h2 hf.2
    refine ⟨(k, v) :: vs, by simp [hl], ⟨v, vs, rfl, hd, hds⟩, ?_⟩
    rw [show h ++ k ++ t ++ u = h ++ (k ++ (t ++ u)) by simp]
    exact .cons _ _ _ _ _ _ _ (.inl hk) hw hws
end

/-- C135, without the irregularities: the grammar is the MessagePack specification (with maps whose names are strings, and integers that fit in 64 bits with sign). What follows the item does not matter. -/
theorem C135_regular (E : Env) (t r : Bytes) : (∃ v, Wire E false v t r) ↔ ∃ d, Enc d t ∧ Fits d := by
  constructor
  · rintro ⟨v, h⟩; obtain ⟨d, h1, h2, _⟩ := strict_spec h; exact ⟨d, h1, h2⟩
  · rintro ⟨d, h1, h2⟩; obtain ⟨v, _, h⟩ := spec_strict E d t r h1 h2; exact ⟨v, h⟩

/-- … and the value read is one the item describes. -/
theorem C135_denotes (E : Env) (v : Val) (t r : Bytes) (h : Wire E false v t r) : parse E (t ++ r) = .ok (v, r) ∧ ∃ d, Enc d t ∧ Fits d ∧ Denotes E d v :=
  ⟨wire_parse h _ (by simp), strict_spec h⟩

/-- If the specification reads the beginning of the input at all, the decoder reads it in the same way. -/
theorem C135_agrees (E : Env) (b : Bytes) (v w : Val) (r s t : Bytes) (h : parse E b = .ok (v, r)) (hb : b = t ++ s) (hw : Wire E false w t s) : v = w ∧ r = s := by
  subst hb
  have e : parse E (t ++ s) = .ok (w, s) := wire_parse hw (t ++ s).length (by simp)
  rw [h] at e
  cases e
  exact ⟨rfl, rfl⟩

/-! ### the other inputs -/

/-- C06 and C135, the panics: the decoder panics exactly on the inputs that lead it to one of its three missing length checks. -/
theorem C06_exact (E : Env) (b : Bytes) : newValueFromMsgPack E b = .panic ↔ Stuck E b := by
  rw [← panic_iff]
  unfold newValueFromMsgPack
  rw [Res.bind_eq_panic]
  constructor
  · rintro (h | ⟨⟨v, r⟩, _, h⟩)
    · exact h
    · cases h
  · exact .inl

/-- C135: what is neither read nor leads to a panic is answered with an error. -/
theorem C135_refused (E : Env) (b : Bytes) : (∃ e, newValueFromMsgPack E b = .err e) ↔ (¬ ∃ v t r, b = t ++ r ∧ Wire E true v t r) ∧ ¬ Stuck E b := by
  constructor
  · rintro ⟨e, he⟩
    refine ⟨?_, ?_⟩
    · rintro ⟨v, h⟩; rw [(C135_value E b v).2 h] at he; cases he
    · intro h; rw [(C06_exact E b).2 h] at he; cases he
  · rintro ⟨h1, h2⟩
    cases h : newValueFromMsgPack E b with
    | ok v => exact absurd ⟨v, (C135_value E b v).1 h⟩ h1
    | err e => exact ⟨e, rfl⟩
    | panic => exact absurd ((C06_exact E b).1 h) h2
    | loop =>
      unfold newValueFromMsgPack at h
      cases hp : parse E b with
      | loop => exact absurd hp (C07_prefix_and_termination E b).1
      | ok x => rw [hp] at h; cases h
      | err e => rw [hp] at h; cases h
      | panic => rw [hp] at h; cases h

/-- An input that the specification reads does not lead to a panic, nor does one that goes on behind it. -/
theorem C06_spec (E : Env) (d : MData) (t r : Bytes) (h : Enc d t) (hf : Fits d) : ¬ Stuck E (t ++ r) := by
  obtain ⟨v, _, hw⟩ := spec_strict E d t r h hf
  intro hs
  have e : parse E (t ++ r) = .ok (v, r) := wire_parse hw (t ++ r).length (by simp)
  rw [(panic_iff E _).2 hs] at e
  cases e

/-! ### examples -/

-- `92 01 c7 0b ff` and eleven bytes: the second item of the array is a moment with too few bytes
example (E : Env) (p : Bytes) (h : p.length = 11) : Stuck E (0x92 :: 1 :: 0xc7 :: 11 :: 0xff :: p) :=
  .arr 2 [0x92] [.int 0 1] [1] _ (.inl ⟨by simp, rfl⟩) (by simp)
    (.cons (.int 0 1) [] [1] [] _ (.spec (.int 1) _ _ _ rfl (.inl ⟨by simp, by simp, rfl⟩) ⟨by simp, by simp⟩ ⟨1, rfl, rfl⟩) (.nil _)) (.time 11 p (by rw [h]; decide) (by omega))

-- `82 a1 61 01 c4 01 62 02`: the second name is a byte array
example (E : Env) : ∃ t, [0x82, 0xa1, 97, 1, 0xc4, 1, 98, 2, 9] = t ++ [9] ∧ Wire E true (.obj true (Assoc.lastWins E.keyMatch [([97], .int 0 1), ([98], .int 0 2)])) t [9] :=
  ⟨[0x82, 0xa1, 97, 1, 0xc4, 1, 98, 2], rfl, .map [0x82] [0xa1] [97] (.int 0 1) [1] [([98], .int 0 2)] [0xc4, 1, 98, 2] [9] (.inl ⟨by simp, rfl⟩) (.inl ⟨by simp, rfl⟩)
    (.spec (.int 1) _ _ _ rfl (.inl ⟨by simp, by simp, rfl⟩) ⟨by simp, by simp⟩ ⟨1, rfl, rfl⟩)
    (.cons [98] (.int 0 2) [] [0xc4, 1] [2] [] [9] (.inr ⟨rfl, .inl ⟨by simp, rfl⟩⟩) (.spec (.int 2) _ _ _ rfl (.inl ⟨by simp, by simp, rfl⟩) ⟨by simp, by simp⟩ ⟨2, rfl, rfl⟩) (.nil _))⟩

-- as the first name it is refused
example : ∀ v r, parse envEx [0x81, 0xc4, 1, 98, 2] ≠ .ok (v, r) := by
  have : parse envEx [0x81, 0xc4, 1, 98, 2] = .err .mapKey := by decide +kernel
  intro v r; rw [this]; simp

-- `c7 00 ff` and then twelve bytes: a moment, of which nothing is taken from the input
example : parse envEx (0xc7 :: 0 :: 0xff :: (be 4 5 ++ be 8 7)) = .ok (.dateTime (envEx.ofUnix 7 5), be 4 5 ++ be 8 7) := by decide +kernel

-- `92 c1 01`: the unused byte swallows the rest, so the array is refused
example : parse envEx [0xc1, 1] = .ok (.nil, []) ∧ parse envEx [0x92, 0xc1, 1] = .err .unknownCode := by decide +kernel

end Dxs.MsgPack
