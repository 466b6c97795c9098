import Verif.MsgPack.Encode

/-! Termination, suffix property, panics, truncation. -/

namespace Dxs.MsgPack
open Spec

/-! ### one pass over the decoder for termination, suffixes and panics -/

/-- A suffix of the input at which the decoder's missing length checks bite:
(a) the header of a non-empty map followed by nothing;
(b) an extension header followed by exactly as many bytes as the payload length (the type byte is not
    counted by the check);
(c) an `ext 8` item of the timestamp type with less than 12 bytes of input after the type. -/
def BadEnd (s : Bytes) : Prop :=
  (∃ n, n ≠ 0 ∧ MapHdr n s) ∨
  (∃ n h p, ExtHdr n h ∧ s = h ++ p ∧ p.length = n) ∨
  (∃ n p, s = 0xc7 :: n :: 0xff :: p ∧ p.length < 12)

theorem ite_elim {α : Type} {P : α → Prop} {c : Prop} [Decidable c] {a b : α} (h1 : c → P a)
    (h2 : ¬c → P b) : P (if c then a else b) := by
  split <;> simp_all

/-- What we know about an outcome on input `b`. -/
def Good {α : Type} (b : Bytes) : Res (α × Bytes) → Prop
  | .ok x => x.2 <:+ b
  | .err _ => True
  | .panic => ∃ s, s <:+ b ∧ BadEnd s
  | .loop => False

theorem Good.bind {α β : Type} {b : Bytes} {r : Res (α × Bytes)} {f : α × Bytes → Res (β × Bytes)}
    (h : Good b r) (hf : ∀ a t, t <:+ b → r = .ok (a, t) → Good t (f (a, t))) : Good b (r >>= f) := by
  cases r with
  | ok x =>
    obtain ⟨a, t⟩ := x
    have ht : t <:+ b := h
    have := hf a t ht rfl
    simp only [Res.bind_ok]
    revert this
    cases f (a, t) with
    | ok y => exact fun g => List.IsSuffix.trans g ht
    | err e => exact fun _ => trivial
    | panic => exact fun ⟨s, h1, h2⟩ => ⟨s, h1.trans ht, h2⟩
    | loop => exact fun g => g
  | err e => trivial
  | panic => exact h
  | loop => exact h

theorem Good.mono {α : Type} {b b' : Bytes} {r : Res (α × Bytes)} (h : Good b r) (hb : b <:+ b') :
    Good b' r := by
  cases r with
  | ok x => exact List.IsSuffix.trans h hb
  | err e => trivial
  | panic => obtain ⟨s, h1, h2⟩ := h; exact ⟨s, h1.trans hb, h2⟩
  | loop => exact h

theorem good_mapErr {α : Type} {b : Bytes} {e : Err} {r : Res (α × Bytes)} (h : Good b r) :
    Good b (mapErr e r) := by
  cases r <;> first | exact h | trivial

theorem good_u8 (b : Bytes) : Good b (parseUint8 b) := by
  unfold parseUint8; split
  · exact List.suffix_cons _ _
  · trivial
theorem good_u16 (b : Bytes) : Good b (parseUint16 b) := by
  unfold parseUint16; split
  · exact List.suffix_append [_, _] _
  · trivial
theorem good_u32 (b : Bytes) : Good b (parseUint32 b) := by
  unfold parseUint32; split
  · exact List.suffix_append [_, _, _, _] _
  · trivial
theorem good_u64 (b : Bytes) : Good b (parseUint64 b) := by
  unfold parseUint64; split
  · exact List.suffix_append [_, _, _, _, _, _, _, _] _
  · trivial

theorem good_len (c : UInt8) (b : Bytes) : Good b (parseLen c b) := by
  unfold parseLen
  repeat' split
  all_goals first
    | exact List.suffix_refl _
    | exact good_u8 b
    | exact good_u16 b
    | exact good_u32 b
    | trivial

theorem good_extLen (c : UInt8) (b : Bytes) : Good b (parseExtLen c b) := by
  unfold parseExtLen
  repeat' split
  all_goals first
    | exact List.suffix_refl _
    | exact good_u8 b
    | exact good_u16 b
    | exact good_u32 b
    | trivial

theorem good_arrLen (c : UInt8) (b : Bytes) : Good b (parseArrLen c b) := by
  unfold parseArrLen
  repeat' split
  all_goals first
    | exact List.suffix_refl _
    | exact good_u16 b
    | exact good_u32 b
    | trivial

theorem good_mapLen (c : UInt8) (b : Bytes) : Good b (parseMapLen c b) := by
  unfold parseMapLen
  repeat' split
  all_goals first
    | exact List.suffix_refl _
    | exact good_mapErr (good_u16 b)
    | exact good_mapErr (good_u32 b)
    | trivial

theorem good_str (c : UInt8) (b : Bytes) : Good b (parseStr c b) := by
  unfold parseStr
  refine Good.bind (good_mapErr (good_len c b)) ?_
  intro n t ht _
  simp only []
  split
  · exact List.suffix_refl _
  split
  · exact List.drop_suffix _ _
  · trivial

theorem good_elems {p : Bytes → Res (Val × Bytes)} :
    ∀ (n : Nat) (b : Bytes), (∀ b', b' <:+ b → Good b' (p b')) → Good b (parseElems p n b)
  | 0, b, _ => List.suffix_refl _
  | n + 1, b, h => by
    unfold parseElems
    refine Good.bind (h b (List.suffix_refl _)) ?_
    intro v t ht _
    refine Good.bind (good_elems n t (fun b' hb => h b' (hb.trans ht))) ?_
    intro vs t' ht' _
    exact List.suffix_refl _

theorem good_members {E : Env} {p : Bytes → Res (Val × Bytes)} :
    ∀ (n : Nat) (ku : Bool) (kvs : List (Bytes × Val)) (b : Bytes),
      (∀ b', b' <:+ b → Good b' (p b')) → Good b (parseMembers E p n ku kvs b)
  | 0, _, _, b, _ => List.suffix_refl _
  | n + 1, ku, kvs, b, h => by
    unfold parseMembers
    refine Good.bind (r := readCode b) ?_ ?_
    · unfold readCode; split
      · exact List.suffix_cons _ _
      · trivial
    intro c t ht _
    refine Good.bind (good_str c t) ?_
    intro k t' ht' _
    refine Good.bind (h t' (ht'.trans ht)) ?_
    intro v t'' ht'' _
    exact good_members n _ _ t'' (fun b' hb => h b' (hb.trans (ht''.trans (ht'.trans ht))))

theorem u16_inv {b t : Bytes} {n : Nat} (h : parseUint16 b = .ok (n, t)) :
    n < 2 ^ 16 ∧ b = be 2 n ++ t := by
  unfold parseUint16 at h; split at h
  · rename_i b0 b1 r
    have l0 := b0.toNat_lt; have l1 := b1.toNat_lt
    simp [be16_eq] at h
    obtain ⟨rfl, rfl⟩ := h
    refine ⟨by omega, ?_⟩
    simp only [be, List.cons_append, List.nil_append, List.cons.injEq, and_true]
    refine ⟨?_, ?_⟩ <;> (apply UInt8.toNat_inj.mp; simp; try omega)
  · cases h

theorem u8_inv {b t : Bytes} {n : Nat} (h : parseUint8 b = .ok (n, t)) :
    n < 2 ^ 8 ∧ b = be 1 n ++ t := by
  unfold parseUint8 at h; split at h
  · rename_i b0 r
    have l0 := b0.toNat_lt
    simp at h
    obtain ⟨rfl, rfl⟩ := h
    refine ⟨by omega, ?_⟩
    simp only [be, List.cons_append, List.nil_append, List.cons.injEq, and_true]
    apply UInt8.toNat_inj.mp; simp
  · cases h

theorem u32_inv {b t : Bytes} {n : Nat} (h : parseUint32 b = .ok (n, t)) :
    n < 2 ^ 32 ∧ b = be 4 n ++ t := by
  unfold parseUint32 at h; split at h
  · rename_i b0 b1 b2 b3 r
    have l0 := b0.toNat_lt; have l1 := b1.toNat_lt; have l2 := b2.toNat_lt; have l3 := b3.toNat_lt
    simp [be32_eq] at h
    obtain ⟨rfl, rfl⟩ := h
    refine ⟨by omega, ?_⟩
    simp only [be, List.cons_append, List.nil_append, List.cons.injEq, and_true]
    refine ⟨?_, ?_, ?_, ?_⟩ <;> (apply UInt8.toNat_inj.mp; simp; try omega)
  · cases h

theorem mapErr_ok {α : Type} {e : Err} {r : Res α} {a : α} (h : mapErr e r = .ok a) : r = .ok a := by
  cases r <;> simp_all [mapErr]

theorem mapLen_inv {c : UInt8} {b t : Bytes} {n : Nat} (h : parseMapLen c b = .ok (n, t)) :
    ∃ hd, MapHdr n hd ∧ c :: b = hd ++ t := by
  unfold parseMapLen at h
  split at h
  · rename_i hc
    simp at hc
    rw [and_mask4] at h
    simp at h
    obtain ⟨rfl, rfl⟩ := h
    refine ⟨[c], Or.inl ⟨by omega, ?_⟩, rfl⟩
    congr 1
    apply UInt8.toNat_inj.mp
    simp [-UInt8.ofNat_add]; omega
  split at h
  · rename_i hc
    simp at hc; subst hc
    obtain ⟨h1, rfl⟩ := u16_inv (mapErr_ok h)
    exact ⟨_, Or.inr (Or.inl ⟨h1, rfl⟩), rfl⟩
  split at h
  · rename_i hc
    simp at hc; subst hc
    obtain ⟨h1, rfl⟩ := u32_inv (mapErr_ok h)
    exact ⟨_, Or.inr (Or.inr ⟨h1, rfl⟩), rfl⟩
  · cases h

theorem extLen_inv {c : UInt8} {b t : Bytes} {n : Nat} (h : parseExtLen c b = .ok (n, t)) :
    ∃ hd, ExtHdr n hd ∧ c :: b = hd ++ t ∧
      (c = 0xd6 → n = 4) ∧ (c = 0xd7 → n = 8) ∧ (c = 0xc7 → ∃ m, b = m :: t) := by
  unfold parseExtLen at h
  repeat' split at h
  all_goals rename_i hc
  all_goals try simp at hc
  · subst hc; cases h; exact ⟨[0xd4], by simp [ExtHdr], by simp⟩
  · subst hc; cases h; exact ⟨[0xd5], by simp [ExtHdr], by simp⟩
  · subst hc; cases h; exact ⟨[0xd6], by simp [ExtHdr], by simp⟩
  · subst hc; cases h; exact ⟨[0xd7], by simp [ExtHdr], by simp⟩
  · subst hc; cases h; exact ⟨[0xd8], by simp [ExtHdr], by simp⟩
  · subst hc
    obtain ⟨h1, rfl⟩ := u8_inv h
    refine ⟨0xc7 :: be 1 n, ?_, rfl, by simp, by simp, fun _ => ⟨_, rfl⟩⟩
    unfold ExtHdr; simp [h1]
  · subst hc
    obtain ⟨h1, rfl⟩ := u16_inv h
    refine ⟨0xc8 :: be 2 n, ?_, rfl, by simp, by simp, by simp⟩
    unfold ExtHdr; simp [h1]
  · subst hc
    obtain ⟨h1, rfl⟩ := u32_inv h
    refine ⟨0xc9 :: be 4 n, ?_, rfl, by simp, by simp, by simp⟩
    unfold ExtHdr; simp [h1]
  · cases h

theorem good_object {E : Env} {p : Bytes → Res (Val × Bytes)} (c : UInt8) (b : Bytes)
    (h : ∀ b', b' <:+ b → Good b' (p b')) : Good (c :: b) (parseObject E p c b) := by
  unfold parseObject
  have hl := good_mapLen c b
  cases hr : parseMapLen c b with
  | err e => trivial
  | panic => rw [hr] at hl; obtain ⟨s, h1, h2⟩ := hl; exact ⟨s, h1.trans (List.suffix_cons _ _), h2⟩
  | loop => rw [hr] at hl; exact hl
  | ok x =>
    obtain ⟨n, t⟩ := x
    rw [hr] at hl
    have ht : t <:+ b := hl
    simp only [Res.bind_ok]
    split
    · exact ht.trans (List.suffix_cons _ _)
    · rename_i hn
      cases t with
      | nil =>
        obtain ⟨hd, h1, h2⟩ := mapLen_inv hr
        refine ⟨c :: b, List.suffix_refl _, Or.inl ⟨n, hn, ?_⟩⟩
        rw [h2]; simpa using h1
      | cons k t =>
        simp only []
        split
        · trivial
        · exact (good_members n false [] (k :: t) (fun b' hb => h b' (hb.trans ht))).mono
            (ht.trans (List.suffix_cons _ _))

theorem goUint32_of_len {b : Bytes} (h : 4 ≤ b.length) : ∃ n, goUint32 b = .ok n := by
  match b, h with
  | b0 :: b1 :: b2 :: b3 :: _, _ => exact ⟨_, rfl⟩

theorem goUint64_of_len {b : Bytes} (h : 8 ≤ b.length) : ∃ n, goUint64 b = .ok n := by
  match b, h with
  | b0 :: b1 :: b2 :: b3 :: b4 :: b5 :: b6 :: b7 :: _, _ => exact ⟨_, rfl⟩

theorem parseTime_ok {E : Env} {c : UInt8} {ty : UInt8} {p : Bytes}
    (h : (c = 0xd6 ∧ 4 ≤ p.length) ∨ (c = 0xd7 ∧ 8 ≤ p.length) ∨ (c = 0xc7 ∧ 12 ≤ p.length)) :
    ∃ x, parseTime E c (ty :: p) = .ok x := by
  rcases h with ⟨rfl, h⟩ | ⟨rfl, h⟩ | ⟨rfl, h⟩
  · obtain ⟨n, hn⟩ := goUint32_of_len h
    simp [parseTime, sliceFrom, hn]
  · obtain ⟨n, hn⟩ := goUint64_of_len h
    simp [parseTime, sliceFrom, hn]
  · obtain ⟨n, hn⟩ := goUint32_of_len (by omega : 4 ≤ p.length)
    obtain ⟨m, hm⟩ := goUint64_of_len (b := p.drop 4) (by simp; omega)
    simp [parseTime, sliceFrom, hn, hm, show 4 ≤ p.length by omega]

theorem parseTime_cases {E : Env} {c : UInt8} (b : Bytes) :
    (∃ x, parseTime E c b = .ok x) ∨ parseTime E c b = .panic := by
  have g32 : ∀ b, (∃ n, goUint32 b = .ok n) ∨ goUint32 b = .panic := by
    intro b; unfold goUint32; split <;> simp
  have g64 : ∀ b, (∃ n, goUint64 b = .ok n) ∨ goUint64 b = .panic := by
    intro b; unfold goUint64; split <;> simp
  have sl : ∀ n b, sliceFrom n b = .ok (b.drop n) ∨ sliceFrom n b = .panic := by
    intro n b; unfold sliceFrom; split <;> simp
  unfold parseTime
  rcases sl 1 b with h1 | h1 <;> rcases g32 (b.drop 1) with ⟨n, h2⟩ | h2 <;>
    rcases g64 (b.drop 1) with ⟨m, h3⟩ | h3 <;> rcases sl 5 b with h4 | h4 <;>
    rcases g64 (b.drop 5) with ⟨k, h5⟩ | h5 <;>
    simp only [h1, h2, h3, h4, h5, Res.bind_ok, Res.bind_panic] <;> (repeat' split) <;> simp

theorem good_ext {E : Env} (c : UInt8) (b : Bytes) : Good (c :: b) (parseExt E c b) := by
  unfold parseExt
  have hl := good_extLen c b
  cases hr : parseExtLen c b with
  | err e => trivial
  | panic => rw [hr] at hl; obtain ⟨s, h1, h2⟩ := hl; exact ⟨s, h1.trans (List.suffix_cons _ _), h2⟩
  | loop => rw [hr] at hl; exact hl
  | ok x =>
    obtain ⟨n, t⟩ := x
    rw [hr] at hl
    have ht : t <:+ b := hl
    obtain ⟨hd, hh, he, h6, h7, hc7⟩ := extLen_inv hr
    simp only [Res.bind_ok]
    split
    · trivial
    · rename_i hn
      unfold sliceFrom
      split
      · rename_i hlen
        simp only [Res.bind_ok]
        cases t with
        | nil => simp at hlen
        | cons ty p =>
          simp only []
          have htail : List.drop (n + 1) (ty :: p) <:+ c :: b :=
            (List.drop_suffix _ _).trans (ht.trans (List.suffix_cons _ _))
          split
          · rename_i hty
            simp [isTime] at hty
            obtain ⟨rfl, hcc⟩ := hty
            simp at hlen
            rcases parseTime_cases (E := E) (c := c) (0xff :: p) with ⟨x, hx⟩ | hx
            · rw [hx]; exact htail
            · rw [hx]
              refine ⟨c :: b, List.suffix_refl _, ?_⟩
              right; right
              rcases hcc with (hcc | hcc) | hcc
              · have := h6 hcc; subst this
                obtain ⟨x, hy⟩ := parseTime_ok (E := E) (ty := 0xff) (p := p) (Or.inl ⟨hcc, hlen⟩)
                rw [hy] at hx; cases hx
              · have := h7 hcc; subst this
                obtain ⟨x, hy⟩ := parseTime_ok (E := E) (ty := 0xff) (p := p) (Or.inr (Or.inl ⟨hcc, hlen⟩))
                rw [hy] at hx; cases hx
              · obtain ⟨m, rfl⟩ := hc7 hcc
                refine ⟨m, p, by rw [hcc], ?_⟩
                apply Nat.lt_of_not_le
                intro hge
                obtain ⟨x, hy⟩ := parseTime_ok (E := E) (ty := 0xff) (p := p) (Or.inr (Or.inr ⟨hcc, hge⟩))
                rw [hy] at hx; cases hx
          · exact htail
      · rename_i hlen
        refine ⟨c :: b, List.suffix_refl _, Or.inr (Or.inl ⟨n, hd, t, hh, he, by omega⟩)⟩

theorem good_bin (c : UInt8) (b : Bytes) : Good b (parseBin c b) := by
  unfold parseBin
  refine Good.bind (good_len c b) ?_
  intro n t ht _
  simp only []
  split
  · exact List.drop_suffix _ _
  · trivial

theorem good_array {p : Bytes → Res (Val × Bytes)} (c : UInt8) (b : Bytes)
    (h : ∀ b', b' <:+ b → Good b' (p b')) : Good b (parseArray p c b) := by
  unfold parseArray
  refine Good.bind (good_arrLen c b) ?_
  intro n t ht _
  refine Good.bind (good_elems n t (fun b' hb => h b' (hb.trans ht))) ?_
  intro vs t' ht' _
  exact List.suffix_refl _

theorem good_then {α : Type} {b : Bytes} {r : Res (α × Bytes)} (h : Good b r) (g : α → Val) :
    Good b (r >>= fun x => .ok (g x.1, x.2)) :=
  Good.bind h ((by intros; exact List.suffix_refl _))

/-- The decoder never exhausts fuel larger than its input; what it leaves is a suffix; and it panics only
at the three kinds of bad ends. -/
theorem good_value (E : Env) : ∀ (f : Nat) (b : Bytes), b.length < f → Good b (parseValue E f b)
  | 0, b, h => absurd h (by omega)
  | f + 1, b, h => by
    cases b with
    | nil => simp [parseValue, readCode, Good]
    | cons c b =>
      have ih : ∀ b', b' <:+ b → Good b' (parseValue E f b') := by
        intro b' hb
        apply good_value E f b'
        have := hb.length_le
        simp at h; omega
      have hs := List.suffix_cons c b
      unfold parseValue
      simp only [readCode, Res.bind_ok]
      refine ite_elim (P := Good (c :: b)) (fun _ => (Good.bind (good_str c b) (by intros; exact List.suffix_refl _)).mono hs) (fun _ => ?_)
      refine ite_elim (P := Good (c :: b)) (fun _ => (good_array c b ih).mono hs) (fun _ => ?_)
      refine ite_elim (P := Good (c :: b)) (fun _ => good_object c b ih) (fun _ => ?_)
      refine ite_elim (P := Good (c :: b)) (fun _ => hs) (fun _ => ?_)
      refine ite_elim (P := Good (c :: b)) (fun _ => (Good.bind (good_u8 b) (by intros; exact List.suffix_refl _)).mono hs) (fun _ => ?_)
      refine ite_elim (P := Good (c :: b)) (fun _ => (Good.bind (good_u8 b) (by intros; exact List.suffix_refl _)).mono hs) (fun _ => ?_)
      refine ite_elim (P := Good (c :: b)) (fun _ => (Good.bind (good_u16 b) (by intros; exact List.suffix_refl _)).mono hs) (fun _ => ?_)
      refine ite_elim (P := Good (c :: b)) (fun _ => (Good.bind (good_u16 b) (by intros; exact List.suffix_refl _)).mono hs) (fun _ => ?_)
      refine ite_elim (P := Good (c :: b)) (fun _ => (Good.bind (good_u32 b) (by intros; exact List.suffix_refl _)).mono hs) (fun _ => ?_)
      refine ite_elim (P := Good (c :: b)) (fun _ => (Good.bind (good_u32 b) (by intros; exact List.suffix_refl _)).mono hs) (fun _ => ?_)
      refine ite_elim (P := Good (c :: b)) (fun _ => (Good.bind (good_u64 b) (by intros; exact List.suffix_refl _)).mono hs) (fun _ => ?_)
      refine ite_elim (P := Good (c :: b)) (fun _ => (Good.bind (good_u32 b) (by intros; exact List.suffix_refl _)).mono hs) (fun _ => ?_)
      refine ite_elim (P := Good (c :: b)) (fun _ => (Good.bind (good_u64 b) (by intros; exact List.suffix_refl _)).mono hs) (fun _ => ?_)
      refine ite_elim (P := Good (c :: b)) (fun _ => hs) (fun _ => ?_)
      refine ite_elim (P := Good (c :: b)) (fun _ => hs) (fun _ => ?_)
      refine ite_elim (P := Good (c :: b)) (fun _ => hs) (fun _ => ?_)
      refine ite_elim (P := Good (c :: b)) (fun _ => (good_bin c b).mono hs) (fun _ => ?_)
      refine ite_elim (P := Good (c :: b)) (fun _ => good_ext c b) (fun _ => ?_)
      exact List.nil_suffix

/-- Decoding consumes at least one byte. -/
theorem consumes (E : Env) (f : Nat) (b t : Bytes) (v : Val) (hf : b.length < f)
    (h : parseValue E f b = .ok (v, t)) : t.length < b.length := by
  cases b with
  | nil => obtain ⟨f, rfl⟩ : ∃ g, f = g + 1 := ⟨f - 1, by omega⟩; simp [parseValue, readCode] at h
  | cons c b =>
    obtain ⟨f, rfl⟩ : ∃ g, f = g + 1 := ⟨f - 1, by omega⟩
    have ih : ∀ b', b' <:+ b → Good b' (parseValue E f b') := by
      intro b' hb
      apply good_value E f b'
      have := hb.length_le
      simp at hf; omega
    -- every branch works on `b`, so what is left is a suffix of `b`
    have key : ∀ r : Res (Val × Bytes), Good b r → r = Res.ok (v, t) → t.length < (c :: b).length := by
      intro r hg hr
      subst hr
      have := List.IsSuffix.length_le hg
      simp only [List.length_cons]; simp at this; omega
    revert h
    unfold parseValue
    simp only [readCode, Res.bind_ok]
    refine ite_elim (P := fun r => r = Res.ok (v, t) → t.length < (c :: b).length) (fun _ h => ?_) (fun _ => ?_)
    · exact key _ (Good.bind (good_str c b) (by intros; exact List.suffix_refl _)) h
    refine ite_elim (P := fun r => r = Res.ok (v, t) → t.length < (c :: b).length) (fun _ h => ?_) (fun _ => ?_)
    · exact key _ (good_array c b ih) h
    refine ite_elim (P := fun r => r = Res.ok (v, t) → t.length < (c :: b).length) (fun _ h => ?_) (fun _ => ?_)
    · unfold parseObject at h
      rw [Res.bind_eq_ok] at h
      obtain ⟨⟨n, t'⟩, h1, h2⟩ := h
      have ht : t' <:+ b := by have := good_mapLen c b; rw [h1] at this; exact this
      simp only [] at h2
      split at h2
      · cases h2; have := ht.length_le; simp; omega
      · cases t' with
        | nil => cases h2
        | cons k t' =>
          simp only [] at h2
          split at h2
          · cases h2
          · have := (good_members (E := E) n false [] (k :: t') (fun b' hb => ih b' (hb.trans ht))).mono ht
            exact key _ this h2
    refine ite_elim (P := fun r => r = Res.ok (v, t) → t.length < (c :: b).length) (fun _ h => ?_) (fun _ => ?_)
    · cases h; simp
    refine ite_elim (P := fun r => r = Res.ok (v, t) → t.length < (c :: b).length) (fun _ h => ?_) (fun _ => ?_)
    · exact key _ (Good.bind (good_u8 b) (by intros; exact List.suffix_refl _)) h
    refine ite_elim (P := fun r => r = Res.ok (v, t) → t.length < (c :: b).length) (fun _ h => ?_) (fun _ => ?_)
    · exact key _ (Good.bind (good_u8 b) (by intros; exact List.suffix_refl _)) h
    refine ite_elim (P := fun r => r = Res.ok (v, t) → t.length < (c :: b).length) (fun _ h => ?_) (fun _ => ?_)
    · exact key _ (Good.bind (good_u16 b) (by intros; exact List.suffix_refl _)) h
    refine ite_elim (P := fun r => r = Res.ok (v, t) → t.length < (c :: b).length) (fun _ h => ?_) (fun _ => ?_)
    · exact key _ (Good.bind (good_u16 b) (by intros; exact List.suffix_refl _)) h
    refine ite_elim (P := fun r => r = Res.ok (v, t) → t.length < (c :: b).length) (fun _ h => ?_) (fun _ => ?_)
    · exact key _ (Good.bind (good_u32 b) (by intros; exact List.suffix_refl _)) h
    refine ite_elim (P := fun r => r = Res.ok (v, t) → t.length < (c :: b).length) (fun _ h => ?_) (fun _ => ?_)
    · exact key _ (Good.bind (good_u32 b) (by intros; exact List.suffix_refl _)) h
    refine ite_elim (P := fun r => r = Res.ok (v, t) → t.length < (c :: b).length) (fun _ h => ?_) (fun _ => ?_)
    · exact key _ (Good.bind (good_u64 b) (by intros; exact List.suffix_refl _)) h
    refine ite_elim (P := fun r => r = Res.ok (v, t) → t.length < (c :: b).length) (fun _ h => ?_) (fun _ => ?_)
    · exact key _ (Good.bind (good_u32 b) (by intros; exact List.suffix_refl _)) h
    refine ite_elim (P := fun r => r = Res.ok (v, t) → t.length < (c :: b).length) (fun _ h => ?_) (fun _ => ?_)
    · exact key _ (Good.bind (good_u64 b) (by intros; exact List.suffix_refl _)) h
    refine ite_elim (P := fun r => r = Res.ok (v, t) → t.length < (c :: b).length) (fun _ h => ?_) (fun _ => ?_)
    · cases h; simp
    refine ite_elim (P := fun r => r = Res.ok (v, t) → t.length < (c :: b).length) (fun _ h => ?_) (fun _ => ?_)
    · cases h; simp
    refine ite_elim (P := fun r => r = Res.ok (v, t) → t.length < (c :: b).length) (fun _ h => ?_) (fun _ => ?_)
    · cases h; simp
    refine ite_elim (P := fun r => r = Res.ok (v, t) → t.length < (c :: b).length) (fun _ h => ?_) (fun _ => ?_)
    · exact key _ (good_bin c b) h
    refine ite_elim (P := fun r => r = Res.ok (v, t) → t.length < (c :: b).length) (fun _ h => ?_) (fun _ => ?_)
    · unfold parseExt at h
      rw [Res.bind_eq_ok] at h
      obtain ⟨⟨n, t'⟩, h1, h2⟩ := h
      have ht : t' <:+ b := by have := good_extLen c b; rw [h1] at this; exact this
      simp only [] at h2
      split at h2
      · cases h2
      · rw [Res.bind_eq_ok] at h2
        obtain ⟨tail, h3, h4⟩ := h2
        have hts : tail = t'.drop (n + 1) := by
          unfold sliceFrom at h3; split at h3
          · cases h3; rfl
          · cases h3
        have hlen : tail.length ≤ b.length := by
          rw [hts]; have := ht.length_le; simp; omega
        have : t = tail := by
          cases t' with
          | nil => cases h4
          | cons ty p =>
            simp only [] at h4
            split at h4
            · rw [Res.bind_eq_ok] at h4
              obtain ⟨x, _, h5⟩ := h4
              cases h5; rfl
            · cases h4; rfl
        subst this; simp; omega
    · intro h; cases h; simp

/-! ### truncation -/

/-- The outcome is not a success. -/
def NotOk {α : Type} (r : Res α) : Prop := ∀ a, r ≠ .ok a

theorem NotOk.bind {α β : Type} {r : Res α} {f : α → Res β} (h : NotOk r) : NotOk (r >>= f) := by
  intro b hb
  rw [Res.bind_eq_ok] at hb
  obtain ⟨a, h1, _⟩ := hb
  exact h a h1

theorem notOk_mapErr {α : Type} {e : Err} {r : Res α} (h : NotOk r) : NotOk (mapErr e r) := by
  intro a ha
  exact h a (mapErr_ok ha)

theorem u8_short {q : Bytes} (h : q.length < 1) : NotOk (parseUint8 q) := by
  intro ⟨n, t⟩ hh; obtain ⟨_, rfl⟩ := u8_inv hh; simp [be_length] at h
theorem u16_short {q : Bytes} (h : q.length < 2) : NotOk (parseUint16 q) := by
  intro ⟨n, t⟩ hh; obtain ⟨_, rfl⟩ := u16_inv hh; simp [be_length] at h; omega
theorem u32_short {q : Bytes} (h : q.length < 4) : NotOk (parseUint32 q) := by
  intro ⟨n, t⟩ hh; obtain ⟨_, rfl⟩ := u32_inv hh; simp [be_length] at h; omega
theorem u64_short {q : Bytes} (h : q.length < 8) : NotOk (parseUint64 q) := by
  intro ⟨n, t⟩ hh
  unfold parseUint64 at hh
  split at hh
  · simp at h; omega
  · cases hh

theorem split_prefix {p x h s : Bytes} (e : p ++ x = h ++ s) :
    (∃ q, p = h ++ q ∧ q ++ x = s) ∨ (∃ q, q ≠ [] ∧ p ++ q = h) := by
  rcases List.append_eq_append_iff.mp e with ⟨q, h1, h2⟩ | ⟨q, h1, h2⟩
  · by_cases hq : q = []
    · subst hq; left; exact ⟨[], by simpa using h1.symm, by simpa using h2⟩
    · right; exact ⟨q, hq, h1.symm⟩
  · left; exact ⟨q, h1, h2.symm⟩

theorem strHdr_short {n : Nat} {c : UInt8} {h' q : Bytes} (h : StrHdr n (c :: h')) (hq : q.length < h'.length) :
    NotOk (parseLen c q) := by
  rcases h with ⟨_, he⟩ | ⟨_, he⟩ | ⟨_, he⟩ | ⟨_, he⟩ <;> cases he <;> simp [be_length] at hq <;>
    simp [parseLen, isFixedStr]
  · exact u8_short (by simp [hq])
  · exact u16_short hq
  · exact u32_short hq

theorem binHdr_short {n : Nat} {c : UInt8} {h' q : Bytes} (h : BinHdr n (c :: h')) (hq : q.length < h'.length) :
    NotOk (parseLen c q) := by
  rcases h with ⟨_, he⟩ | ⟨_, he⟩ | ⟨_, he⟩ <;> cases he <;> simp [be_length] at hq <;>
    simp [parseLen, isFixedStr]
  · exact u8_short (by simp [hq])
  · exact u16_short hq
  · exact u32_short hq

theorem arrHdr_short {n : Nat} {c : UInt8} {h' q : Bytes} (h : ArrHdr n (c :: h')) (hq : q.length < h'.length) :
    NotOk (parseArrLen c q) := by
  rcases h with ⟨_, he⟩ | ⟨_, he⟩ | ⟨_, he⟩ <;> cases he <;> simp [be_length] at hq <;>
    simp [parseArrLen]
  · exact u16_short hq
  · exact u32_short hq

theorem mapHdr_short {n : Nat} {c : UInt8} {h' q : Bytes} (h : MapHdr n (c :: h')) (hq : q.length < h'.length) :
    NotOk (parseMapLen c q) := by
  rcases h with ⟨_, he⟩ | ⟨_, he⟩ | ⟨_, he⟩ <;> cases he <;> simp [be_length] at hq <;>
    simp [parseMapLen]
  · exact notOk_mapErr (u16_short hq)
  · exact notOk_mapErr (u32_short hq)

theorem extHdr_short {n : Nat} {c : UInt8} {h' q : Bytes} (h : ExtHdr n (c :: h')) (hq : q.length < h'.length) :
    NotOk (parseExtLen c q) := by
  rcases h with ⟨_, he⟩ | ⟨_, he⟩ | ⟨_, he⟩ | ⟨_, he⟩ | ⟨_, he⟩ | ⟨_, he⟩ | ⟨_, he⟩ | ⟨_, he⟩ <;> cases he <;>
    simp [be_length] at hq <;> simp [parseExtLen]
  · exact u8_short (by simp [hq])
  · exact u16_short hq
  · exact u32_short hq

theorem parseStr_short {c : UInt8} {b q : Bytes} {n : Nat} (h : parseLen c b = .ok (n, q)) (hq : q.length < n) :
    NotOk (parseStr c b) := by
  intro a ha
  simp only [parseStr, h, mapErr, Res.bind_ok] at ha
  rw [if_neg (by omega), if_neg (by omega)] at ha
  cases ha

theorem extBody_short {E : Env} {c : UInt8} {b q : Bytes} {n : Nat} (h : parseExtLen c b = .ok (n, q))
    (hq : q.length < n + 1) : NotOk (parseExt E c b) := by
  intro a ha
  simp only [parseExt, h, Res.bind_ok] at ha
  split at ha
  · cases ha
  · simp only [sliceFrom] at ha
    rw [if_neg (by omega)] at ha
    cases ha

theorem be_prefix_len {p x : Bytes} {k n : Nat} (h : p ++ x = be k n) (hx : x ≠ []) : p.length < k := by
  have := congrArg List.length h
  simp [be_length] at this
  have := List.length_pos_iff.mpr hx
  omega

theorem cons_prefix {c : UInt8} {p x b : Bytes} (h : p ++ x = c :: b) :
    p = [] ∨ ∃ p', p = c :: p' ∧ p' ++ x = b := by
  cases p with
  | nil => left; rfl
  | cons a p => simp at h; right; exact ⟨p, by simp [h.1], h.2⟩

theorem int_trunc {E : Env} {f : Nat} {n : Int} {bs p x : Bytes} (h : IntFmt n bs) (e : p ++ x = bs)
    (hx : x ≠ []) : NotOk (parseValue E (f + 1) p) := by
  rcases h with ⟨_, _, rfl⟩ | ⟨_, _, rfl⟩ | ⟨_, _, rfl⟩ | ⟨_, _, rfl⟩ | ⟨_, _, rfl⟩ | ⟨_, _, rfl⟩ |
    ⟨_, _, rfl⟩ | ⟨_, _, rfl⟩ | ⟨_, _, rfl⟩ | ⟨_, _, rfl⟩ <;>
  rcases cons_prefix e with rfl | ⟨p', rfl, e'⟩
  all_goals first
    | (simp [parseValue, readCode, NotOk]; done)
    | (exfalso; simp at e'; exact hx e'.2)
    | (have hl := be_prefix_len e' hx
       simp [parseValue, readCode, isStr, isArray, isMap, isFixedNum]
       first
        | exact NotOk.bind (u8_short hl)
        | exact NotOk.bind (u16_short hl)
        | exact NotOk.bind (u32_short hl)
        | exact NotOk.bind (u64_short hl))

theorem nil_notOk {E : Env} {f : Nat} : NotOk (parseValue E (f + 1) []) := by
  simp [parseValue, readCode, NotOk]

theorem ts_trunc {E : Env} {f : Nat} {sec : Int} {nsec : Nat} {bs p x : Bytes} (h : TsFmt sec nsec bs)
    (e : p ++ x = bs) (hx : x ≠ []) : NotOk (parseValue E (f + 1) p) := by
  rcases h with ⟨_, _, _, rfl⟩ | ⟨_, _, _, rfl⟩ | ⟨_, _, _, rfl⟩ <;>
    rcases cons_prefix e with rfl | ⟨p', rfl, e'⟩
  · exact nil_notOk
  · rw [pv_ext (by simp)]
    refine extBody_short (n := 4) (q := p') (by simp [parseExtLen]) ?_
    have := congrArg List.length e'
    have := List.length_pos_iff.mpr hx
    simp [be_length] at *; omega
  · exact nil_notOk
  · rw [pv_ext (by simp)]
    refine extBody_short (n := 8) (q := p') (by simp [parseExtLen]) ?_
    have := congrArg List.length e'
    have := List.length_pos_iff.mpr hx
    simp [be_length] at *; omega
  · exact nil_notOk
  · rw [pv_ext (by simp)]
    rcases cons_prefix e' with rfl | ⟨p', rfl, e''⟩
    · simp [parseExt, parseExtLen, parseUint8, NotOk]
    · refine extBody_short (n := 12) (q := p') (by simp [parseExtLen, parseUint8]) ?_
      have := congrArg List.length e''
      have := List.length_pos_iff.mpr hx
      simp [be_length, beI] at *; omega

mutual
theorem trunc (E : Env) : ∀ (d : MData) (bs p x : Bytes) (f : Nat), Enc d bs → Fits d →
    p ++ x = bs → x ≠ [] → p.length ≤ f → NotOk (parseValue E (f + 1) p)
  | .nil, bs, p, x, f, h, _, e, hx, _ => by
    subst h
    rcases cons_prefix e with rfl | ⟨p', rfl, e'⟩
    · exact nil_notOk
    · simp [hx] at e'
  | .bool b, bs, p, x, f, h, _, e, hx, _ => by
    subst h
    rcases cons_prefix e with rfl | ⟨p', rfl, e'⟩
    · exact nil_notOk
    · simp [hx] at e'
  | .int n, bs, p, x, f, h, _, e, hx, _ => int_trunc h e hx
  | .f32 y, bs, p, x, f, h, _, e, hx, _ => by
    subst h
    rcases cons_prefix e with rfl | ⟨p', rfl, e'⟩
    · exact nil_notOk
    · simp [parseValue, readCode, isStr, isArray, isMap, isFixedNum]
      exact NotOk.bind (u32_short (be_prefix_len e' hx))
  | .f64 y, bs, p, x, f, h, _, e, hx, _ => by
    subst h
    rcases cons_prefix e with rfl | ⟨p', rfl, e'⟩
    · exact nil_notOk
    · simp [parseValue, readCode, isStr, isArray, isMap, isFixedNum]
      exact NotOk.bind (u64_short (be_prefix_len e' hx))
  | .str s, bs, p, x, f, h, _, e, hx, _ => by
    obtain ⟨hd, hh, rfl⟩ := h
    obtain ⟨c, h', rfl, hs, hl⟩ := strHdr_dec hh
    rcases cons_prefix e with rfl | ⟨p', rfl, e'⟩
    · exact nil_notOk
    rw [pv_str hs]
    refine NotOk.bind ?_
    rcases split_prefix e' with ⟨q, rfl, e2⟩ | ⟨q, hq, e2⟩
    · refine parseStr_short (hl q) ?_
      have := congrArg List.length e2; have := List.length_pos_iff.mpr hx
      simp at *; omega
    · unfold parseStr
      refine NotOk.bind (notOk_mapErr (strHdr_short hh ?_))
      have := congrArg List.length e2; have := List.length_pos_iff.mpr hq
      simp at *; omega
  | .bin s, bs, p, x, f, h, _, e, hx, _ => by
    obtain ⟨hd, hh, rfl⟩ := h
    obtain ⟨c, h', rfl, hs, hl⟩ := binHdr_dec hh
    rcases cons_prefix e with rfl | ⟨p', rfl, e'⟩
    · exact nil_notOk
    rw [pv_bin hs]
    unfold parseBin
    rcases split_prefix e' with ⟨q, rfl, e2⟩ | ⟨q, hq, e2⟩
    · rw [hl q]
      simp only [Res.bind_ok]
      rw [if_neg]
      · simp [NotOk]
      · have := congrArg List.length e2; have := List.length_pos_iff.mpr hx
        simp at *; omega
    · refine NotOk.bind (binHdr_short hh ?_)
      have := congrArg List.length e2; have := List.length_pos_iff.mpr hq
      simp at *; omega
  | .ext ty s, bs, p, x, f, h, _, e, hx, _ => by
    obtain ⟨hd, hh, hty, rfl⟩ := h
    obtain ⟨c, h', rfl, hs, hl⟩ := extHdr_dec hh
    rcases cons_prefix e with rfl | ⟨p', rfl, e'⟩
    · exact nil_notOk
    rw [pv_ext hs]
    rcases split_prefix e' with ⟨q, rfl, e2⟩ | ⟨q, hq, e2⟩
    · refine extBody_short (hl q) ?_
      have := congrArg List.length e2; have := List.length_pos_iff.mpr hx
      simp at *; omega
    · unfold parseExt
      refine NotOk.bind (extHdr_short hh ?_)
      have := congrArg List.length e2; have := List.length_pos_iff.mpr hq
      simp at *; omega
  | .ts sec nsec, bs, p, x, f, h, _, e, hx, _ => ts_trunc h e hx
  | .arr xs, bs, p, x, f, h, hf, e, hx, hl => by
    obtain ⟨hd, body, hh, hb, rfl⟩ := h
    obtain ⟨c, h', rfl, h1, h2, h3⟩ := arrHdr_dec hh
    rcases cons_prefix e with rfl | ⟨p', rfl, e'⟩
    · exact nil_notOk
    rw [pv_arr h1 h2]
    simp at hl
    obtain ⟨f, rfl⟩ : ∃ g, f = g + 1 := ⟨f - 1, by omega⟩
    unfold parseArray
    rcases split_prefix e' with ⟨q, rfl, e2⟩ | ⟨q, hq, e2⟩
    · rw [h3 q]
      simp only [Res.bind_ok]
      refine NotOk.bind (truncL E xs body q x f hb hf e2 hx ?_)
      simp at hl; omega
    · refine NotOk.bind (arrHdr_short hh ?_)
      have := congrArg List.length e2; have := List.length_pos_iff.mpr hq
      simp at *; omega
  | .map kvs, bs, p, x, f, h, hf, e, hx, hl => by
    obtain ⟨hd, body, hh, hb, rfl⟩ := h
    obtain ⟨c, h', rfl, h1, h2, h3, h4⟩ := mapHdr_dec hh
    rcases cons_prefix e with rfl | ⟨p', rfl, e'⟩
    · exact nil_notOk
    rw [pv_map h1 h2 h3]
    simp at hl
    obtain ⟨f, rfl⟩ : ∃ g, f = g + 1 := ⟨f - 1, by omega⟩
    unfold parseObject
    rcases split_prefix e' with ⟨q, rfl, e2⟩ | ⟨q, hq, e2⟩
    · rw [h4 q]
      simp only [Res.bind_ok]
      split
      · rename_i h0
        have : kvs = [] := List.eq_nil_of_length_eq_zero h0
        subst this
        have hb : body = [] := hb
        subst hb
        simp [hx] at e2
      · cases q with
        | nil => simp [NotOk]
        | cons k q =>
          simp only []
          split
          · simp [NotOk]
          · refine truncM E kvs body (k :: q) x f hb hf e2 hx ?_ false []
            simp at hl; simp; omega
    · refine NotOk.bind (mapHdr_short hh ?_)
      have := congrArg List.length e2; have := List.length_pos_iff.mpr hq
      simp at *; omega
theorem truncL (E : Env) : ∀ (ds : List MData) (bs p x : Bytes) (f : Nat), EncL ds bs → FitsL ds →
    p ++ x = bs → x ≠ [] → p.length ≤ f → NotOk (parseElems (parseValue E (f + 1)) ds.length p)
  | [], bs, p, x, f, h, _, e, hx, _ => by
    have h : bs = [] := h
    subst h; simp [hx] at e
  | d :: ds, bs, p, x, f, h, hf, e, hx, hl => by
    obtain ⟨b1, b2, h1, h2, rfl⟩ := h
    simp only [List.length_cons, parseElems]
    rcases split_prefix e with ⟨q, rfl, e2⟩ | ⟨q, hq, e2⟩
    · simp at hl
      obtain ⟨v, _, ev⟩ := dec_ok E d b1 q f h1 hf.1 (by omega)
      rw [ev]
      simp only [Res.bind_ok]
      exact NotOk.bind (truncL E ds b2 q x f h2 hf.2 e2 hx (by omega))
    · exact NotOk.bind (trunc E d b1 p q f h1 hf.1 e2 hq hl)
theorem truncM (E : Env) : ∀ (kvs : List (Bytes × MData)) (bs p x : Bytes) (f : Nat), EncM kvs bs →
    FitsM kvs → p ++ x = bs → x ≠ [] → p.length ≤ f → ∀ (ku : Bool) (acc : List (Bytes × Val)),
    NotOk (parseMembers E (parseValue E (f + 1)) kvs.length ku acc p)
  | [], bs, p, x, f, h, _, e, hx, _, _, _ => by
    have h : bs = [] := h
    subst h; simp [hx] at e
  | (k, d) :: kvs, bs, p, x, f, h, hf, e, hx, hl, ku, acc => by
    obtain ⟨hd, b1, b2, hh, h1, h2, rfl⟩ := h
    obtain ⟨c, h', rfl, hs, hlen⟩ := strHdr_dec hh
    simp only [List.length_cons, parseMembers]
    simp only [List.cons_append, List.append_assoc] at e
    rcases cons_prefix e with rfl | ⟨p', rfl, e'⟩
    · simp [readCode, NotOk]
    simp only [readCode, Res.bind_ok]
    rcases split_prefix e' with ⟨q, rfl, e2⟩ | ⟨q, hq, e2⟩
    · rcases split_prefix e2 with ⟨q2, rfl, e3⟩ | ⟨q2, hq2, e3⟩
      · rw [parseStr_of_len (hlen _)]
        simp only [Res.bind_ok]
        simp at hl
        rcases split_prefix e3 with ⟨q3, rfl, e4⟩ | ⟨q3, hq3, e4⟩
        · simp at hl
          obtain ⟨v, _, ev⟩ := dec_ok E d b1 q3 f h1 hf.1 (by omega)
          rw [ev]
          simp only [Res.bind_ok]
          exact truncM E kvs b2 q3 x f h2 hf.2 e4 hx (by omega) _ _
        · exact NotOk.bind (trunc E d b1 q2 q3 f h1 hf.1 e4 hq3 (by omega))
      · refine NotOk.bind (parseStr_short (hlen q) ?_)
        have := congrArg List.length e3; have := List.length_pos_iff.mpr hq2
        simp at *; omega
    · unfold parseStr
      refine NotOk.bind (NotOk.bind (notOk_mapErr (strHdr_short hh ?_)))
      have := congrArg List.length e2; have := List.length_pos_iff.mpr hq
      simp at *; omega
end

end Dxs.MsgPack
