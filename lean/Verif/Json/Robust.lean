import Verif.Json.Eqns

/-!
# The decoder never panics, terminates, and consumes a prefix
-/

namespace Dxs.Json

variable (E : Env)

theorem errorString_panic_iff (ty : JET) (i : Nat) (b : Bytes) :
    errorString (.json ty i b) = .panic ↔ b.length < i := by
  unfold errorString
  dsimp only
  split <;> split <;> simp_all <;> omega

/-- An error can be printed, or it is the "unterminated key" error of an input whose last quote starts a
non-empty unterminated key. -/
def ErrOk (b : Bytes) (e : Err) : Prop :=
  errorString e ≠ .panic ∨ ∃ pre k, b = pre ++ 34 :: k ∧ 34 ∉ k ∧ k ≠ [] ∧ e = .json .noKeyStart k.length []

/-- A parse result of input `b`: no panic, no exhausted fuel, a proper suffix of the input remains. -/
def Good (b : Bytes) : Res (Val × Bytes) → Prop
  | .ok (_, t) => t <:+ b ∧ t.length < b.length
  | .err e => ErrOk b e
  | .panic => False
  | .loop => False

theorem ErrOk.mono {b b' : Bytes} {e : Err} (h : ErrOk b e) (hb : b <:+ b') : ErrOk b' e := by
  rcases h with h | ⟨pre, k, rfl, h1, h2, h3⟩
  · exact .inl h
  · obtain ⟨q, rfl⟩ := hb
    exact .inr ⟨q ++ pre, k, by simp, h1, h2, h3⟩

theorem Good.mono {b b' : Bytes} {r : Res (Val × Bytes)} (h : Good b r) (hb : b <:+ b') : Good b' r := by
  rcases r with ⟨v, t⟩ | e | _ | _
  · exact ⟨h.1.trans hb, Nat.lt_of_lt_of_le h.2 hb.length_le⟩
  · exact ErrOk.mono h hb
  · exact h
  · exact h

theorem ErrOk.json {b : Bytes} {ty : JET} {i : Nat} {c : Bytes} (h : i ≤ c.length) :
    ErrOk b (.json ty i c) := .inl (by rw [Ne, errorString_panic_iff]; omega)

theorem ErrOk.invalid (b : Bytes) : ErrOk b .jsonInvalid := .inl (by simp [errorString])

theorem sk_suffix (b : Bytes) : sk b <:+ b := List.dropWhile_suffix _

theorem suffix_tail {c : UInt8} {r b : Bytes} (h : c :: r <:+ b) : r <:+ b ∧ r.length < b.length :=
  ⟨(List.suffix_cons c r).trans h, by have := h.length_le; simp at this; omega⟩

theorem good_str (r : Bytes) : Good (34 :: r) (match scan r with
    | some p => .ok (strVal E p.1, p.2)
    | none => .err (.json .noStrEnd 0 [])) := by
  cases hs : scan r with
  | none => exact ErrOk.json (by simp)
  | some p =>
    obtain ⟨_, h⟩ := (scan_iff r p.1 p.2).1 hs
    refine ⟨⟨34 :: p.1 ++ [34], ?_⟩, ?_⟩
    · rw [h]; simp
    · rw [h]; simp; omega

theorem good_drop {b : Bytes} {v : Val} {n : Nat} (hn : 0 < n) (hb : n ≤ b.length) :
    Good b (.ok (v, b.drop n)) := ⟨List.drop_suffix _ _, by simp; omega⟩

theorem good_num {b : Bytes} (hb : b ≠ []) : Good b (parseNum E b) := by
  rcases split_num b with h | ⟨p, c, r, rfl, hp, hc⟩
  · rw [parseNum_all E h]
    exact ⟨List.nil_suffix, by simpa [List.length_pos_iff] using hb⟩
  · rw [parseNum_stop E r hp hc, numEnd]
    split
    · split
      · rename_i hl
        have hd : Good (c :: r) (.ok (Val.inf, (c :: r).drop 3)) := good_drop (by omega) hl
        have hd2 : Good (c :: r) (.ok (Val.nan, (c :: r).drop 3)) := good_drop (by omega) hl
        split
        · exact hd.mono (List.suffix_append _ _)
        · split
          · exact hd2.mono (List.suffix_append _ _)
          · exact ErrOk.invalid _
      · exact ErrOk.invalid _
    · rename_i hw
      have : p ≠ [] := fun h => hw (.inl h)
      have hl : (c :: r).length < (p ++ c :: r).length := by
        have := List.length_pos_iff.2 this
        simp; omega
      split
      · exact ⟨List.suffix_append _ _, hl⟩
      · exact ⟨List.suffix_append _ _, hl⟩

theorem good_lit (c : UInt8) (r : Bytes) : Good (c :: r) (parseLit E c (c :: r)) := by
  by_cases h1 : c = 116
  · subst h1
    rw [parseLit_t]
    split
    · rename_i h; exact good_drop (by omega) (by simpa using h.length_le)
    · exact ErrOk.invalid _
  · by_cases h2 : c = 102
    · subst h2
      rw [parseLit_f]
      split
      · rename_i h; exact good_drop (by omega) (by simpa using h.length_le)
      · exact ErrOk.invalid _
    · by_cases h3 : c = 110
      · subst h3
        rw [parseLit_n]
        split
        · rename_i h; exact good_drop (by omega) (by simpa using h.length_le)
        · split
          · rename_i h; exact good_drop (by omega) h.1
          · exact ErrOk.invalid _
      · rw [parseLit_num E _ h1 h2 h3]
        exact good_num E (by simp)

theorem good_objNext {f : Nat} (ih : ∀ b kvs, 3 * b.length + 4 ≤ f → Good b (objLoop E f b kvs))
    (b : Bytes) (kvs : List (Bytes × Val)) (hf : 3 * b.length + 1 ≤ f) : ∀ b', b <:+ b' → b.length < b'.length →
      Good b' (objNext E f kvs b) := by
  intro b' hs hl
  have hss := sk_suffix b
  rw [objNext]
  cases hb : sk b with
  | nil => exact ErrOk.json (skipWB_snd b)
  | cons c t =>
    rw [hb] at hss
    have h1 := suffix_tail hss
    dsimp only
    split
    · exact (ih t kvs (by omega)).mono (h1.1.trans hs)
    · split
      · exact ⟨h1.1.trans hs, by omega⟩
      · exact ErrOk.json (skipWB_snd b)

theorem good_arrNext {f : Nat} (ih : ∀ b xs, 3 * b.length + 4 ≤ f → Good b (arrLoop E f b xs))
    (b : Bytes) (xs : List Val) (hf : 3 * b.length + 1 ≤ f) : ∀ b', b <:+ b' → b.length < b'.length →
      Good b' (arrNext E f xs b) := by
  intro b' hs hl
  have hss := sk_suffix b
  rw [arrNext]
  cases hb : sk b with
  | nil => exact ErrOk.json (skipWB_snd b)
  | cons c t =>
    rw [hb] at hss
    have h1 := suffix_tail hss
    dsimp only
    split
    · exact (ih t xs (by omega)).mono (h1.1.trans hs)
    · split
      · exact ⟨h1.1.trans hs, by omega⟩
      · exact ErrOk.json (skipWB_snd b)

/-- With three units of fuel per input byte. -/
theorem good_all : ∀ fuel : Nat,
    (∀ b, 3 * b.length + 3 ≤ fuel → Good b (parseValue E fuel b)) ∧
    (∀ b, 3 * b.length + 5 ≤ fuel → Good b (parseObj E fuel b)) ∧
    (∀ b kvs, 3 * b.length + 4 ≤ fuel → Good b (objLoop E fuel b kvs)) ∧
    (∀ b, 3 * b.length + 5 ≤ fuel → Good b (parseArr E fuel b)) ∧
    (∀ b xs, 3 * b.length + 4 ≤ fuel → Good b (arrLoop E fuel b xs)) := by
  intro fuel
  induction fuel with
  | zero => refine ⟨?_, ?_, ?_, ?_, ?_⟩ <;> intros <;> omega
  | succ f ih =>
    obtain ⟨ihV, ihO, ihOL, ihA, ihAL⟩ := ih
    refine ⟨?_, ?_, ?_, ?_, ?_⟩
    · intro b hf
      cases b with
      | nil => rw [parseValue_nil]; exact ErrOk.json (by simp)
      | cons c r =>
        simp only [List.length_cons] at hf
        by_cases h1 : c = 123
        · subst h1
          rw [parseValue_obj]
          exact (ihO r (by omega)).mono (List.suffix_cons _ _)
        · by_cases h2 : c = 91
          · subst h2
            rw [parseValue_arr]
            exact (ihA r (by omega)).mono (List.suffix_cons _ _)
          · by_cases h3 : c = 34
            · subst h3
              rw [parseValue_str]
              exact good_str E r
            · rw [parseValue_lit E f r h1 h2 h3]
              exact good_lit E c r
    · intro b hf
      have hss := sk_suffix b
      cases hb : sk b with
      | nil => rw [parseObj_nil E f hb]; exact ErrOk.json (skipWB_snd b)
      | cons c t =>
        rw [hb] at hss
        by_cases hc : c = 125
        · subst hc
          rw [parseObj_end E f hb]
          exact suffix_tail hss
        · rw [parseObj_loop E f hb hc]
          exact (ihOL _ _ (by have := hss.length_le; omega)).mono hss
    · intro b kvs hf
      have hss := sk_suffix b
      rcases objLoop_cases b with h | ⟨r, h, hr⟩ | ⟨k, r, h, hk, hr⟩ | ⟨k, r, r', h, hk, hr⟩
      · rw [objLoop_nostart E f kvs h]; exact ErrOk.json (skipWB_snd b)
      · rw [objLoop_nokey E f kvs h hr]
        by_cases hn : r = []
        · subst hn; exact ErrOk.json (by simp)
        · obtain ⟨pre, hp⟩ := hss
          exact .inr ⟨pre, r, by rw [← h, hp], hr, hn, rfl⟩
      · rw [objLoop_nocolon E f kvs h hk hr]; exact ErrOk.json (skipWB_snd r)
      · rw [objLoop_member E f kvs h hk hr]
        have hr' := sk_suffix r
        rw [hr] at hr'
        have h1 := suffix_tail hr'
        have h2 : r <:+ b := by
          refine List.IsSuffix.trans ⟨34 :: (k ++ [34]), ?_⟩ hss
          rw [h]; simp
        have h2l := h2.length_le
        have h3 := sk_suffix r'
        have h3l := h3.length_le
        have h4 := ihV (sk r') (by omega)
        have hsb : sk r' <:+ b := (h3.trans h1.1).trans h2
        cases hv : parseValue E f (sk r') with
        | ok p =>
          obtain ⟨v, t⟩ := p
          rw [hv] at h4
          rw [Res.bind_ok]
          have h4s := h4.1
          have h4l := h4.2
          exact good_objNext E ihOL t _ (by omega) b (h4s.trans hsb) (by omega)
        | err e => rw [hv] at h4; exact ErrOk.mono h4 hsb
        | panic => rw [hv] at h4; exact h4
        | loop => rw [hv] at h4; exact h4
    · intro b hf
      have hss := sk_suffix b
      cases hb : sk b with
      | nil => rw [parseArr_nil E f hb]; exact ErrOk.json (skipWB_snd b)
      | cons c t =>
        rw [hb] at hss
        by_cases hc : c = 93
        · subst hc
          rw [parseArr_end E f hb]
          exact suffix_tail hss
        · rw [parseArr_loop E f hb hc]
          exact (ihAL _ _ (by have := hss.length_le; omega)).mono hss
    · intro b xs hf
      rw [arrLoop_eq]
      have hss := sk_suffix b
      have hl := hss.length_le
      have h4 := ihV (sk b) (by omega)
      cases hv : parseValue E f (sk b) with
      | ok p =>
        obtain ⟨v, t⟩ := p
        rw [hv] at h4
        rw [Res.bind_ok]
        have h4s := h4.1
        have h4l := h4.2
        exact good_arrNext E ihAL t _ (by omega) b (h4s.trans hss) (by omega)
      | err e => rw [hv] at h4; exact ErrOk.mono h4 hss
      | panic => rw [hv] at h4; exact h4
      | loop => rw [hv] at h4; exact h4

/-- The outcomes of the whole decoder. -/
theorem newValue_good (b : Bytes) :
    (∃ v, newValueFromJson E b = .ok v) ∨ ∃ e, newValueFromJson E b = .err e ∧ ErrOk b e := by
  unfold newValueFromJson
  rw [skipWB_eq b]
  dsimp only
  have h := (good_all E (3 * (sk b).length + 3)).1 (sk b) (by omega)
  cases hv : parseValue E (3 * (sk b).length + 3) (sk b) with
  | ok p =>
    obtain ⟨v, t⟩ := p
    rw [Res.bind_ok]
    dsimp only
    rw [skipWB_eq t]
    dsimp only
    split
    · exact .inr ⟨_, rfl, ErrOk.json (skipWB_snd t)⟩
    · exact .inl ⟨v, rfl⟩
  | err e => rw [hv] at h; exact .inr ⟨e, rfl, h.mono (sk_suffix b)⟩
  | panic => rw [hv] at h; exact h.elim
  | loop => rw [hv] at h; exact h.elim

/-! ## What was parsed does not depend on what follows -/

theorem sk_append {b : Bytes} (g : Bytes) (h : sk b ≠ []) : sk (b ++ g) = sk b ++ g := by
  induction b with
  | nil => exact absurd rfl h
  | cons c b ih =>
    simp only [sk, List.cons_append, List.dropWhile_cons] at h ih ⊢
    split
    · rename_i hc; simp only [hc, if_true] at h; exact ih h
    · rfl

theorem scan_append {b s t : Bytes} (g : Bytes) (h : scan b = some (s, t)) : scan (b ++ g) = some (s, t ++ g) := by
  rw [scan_iff] at h ⊢
  exact ⟨h.1, by rw [h.2]; simp⟩

theorem prefix_append_iff {p b : Bytes} (g : Bytes) (h : p.length ≤ b.length) : p <+: b ++ g ↔ p <+: b := by
  constructor
  · rintro hp
    exact List.prefix_of_prefix_length_le hp (List.prefix_append _ _) h
  · intro hp; exact hp.trans (List.prefix_append _ _)

theorem lit_append {c : UInt8} {r : Bytes} {v : Val} {t : Bytes} (g : Bytes)
    (h : parseLit E c (c :: r) = .ok (v, t)) (ht : t ≠ []) :
    parseLit E c (c :: r ++ g) = .ok (v, t ++ g) := by
  by_cases h1 : c = 116
  · subst h1
    rw [parseLit_t] at h ⊢
    split at h
    · rename_i hp
      rw [if_pos (hp.trans (List.prefix_append _ _)), List.drop_append_of_le_length (by simpa using hp.length_le)]
      cases h; rfl
    · cases h
  · by_cases h2 : c = 102
    · subst h2
      rw [parseLit_f] at h ⊢
      split at h
      · rename_i hp
        rw [if_pos (hp.trans (List.prefix_append _ _)), List.drop_append_of_le_length (by simpa using hp.length_le)]
        cases h; rfl
      · cases h
    · by_cases h3 : c = 110
      · subst h3
        rw [parseLit_n] at h ⊢
        split at h
        · rename_i hp
          rw [if_pos (hp.trans (List.prefix_append _ _)),
            List.drop_append_of_le_length (by simpa using hp.length_le)]
          cases h; rfl
        · rename_i hp
          split at h
          · rename_i hn
            cases h
            have hl : 4 ≤ (110 :: r).length := by
              simp at ht ⊢; omega
            rw [if_neg (fun h => hp ((prefix_append_iff g (by simpa using hl)).1 h)),
              if_pos ⟨by simp at hn ⊢; omega, fun h => hn.2 ((prefix_append_iff g (by simpa using hn.1)).1 h)⟩,
              List.drop_append_of_le_length hn.1]
          · cases h
      · rw [parseLit_num E _ h1 h2 h3] at h ⊢
        rcases split_num (c :: r) with hs | ⟨p, d, q, hs, hp, hc⟩
        · rw [parseNum_all E hs] at h; cases h; exact absurd rfl ht
        · rw [hs, parseNum_stop E q hp hc] at h
          rw [hs, List.append_assoc, List.cons_append, parseNum_stop E (q ++ g) hp hc]
          rw [numEnd] at h ⊢
          split at h
          · rename_i hw
            rw [if_pos hw]
            split at h
            · rename_i hl
              rw [if_pos (by simp at hl ⊢; omega), ← List.cons_append, List.take_append_of_le_length hl,
                List.drop_append_of_le_length hl]
              split at h
              · rename_i hf; rw [if_pos hf]; cases h; rfl
              · rename_i hf
                rw [if_neg hf]
                split at h
                · rename_i hf; rw [if_pos hf]; cases h; rfl
                · cases h
            · cases h
          · rename_i hw
            rw [if_neg hw]
            split at h
            · rename_i hd; rw [if_pos hd]; cases h; rfl
            · rename_i hd; rw [if_neg hd]; cases h; rfl

/-- First bytes of values that end at their own closing delimiter. -/
def selfEnding (b : Bytes) : Prop := b.head? = some 123 ∨ b.head? = some 91 ∨ b.head? = some 34

theorem append_all (g : Bytes) : ∀ fuel fuel' : Nat, fuel ≤ fuel' →
    (∀ b v t, parseValue E fuel b = .ok (v, t) → t ≠ [] ∨ selfEnding b →
      parseValue E fuel' (b ++ g) = .ok (v, t ++ g)) ∧
    (∀ b v t, parseObj E fuel b = .ok (v, t) → parseObj E fuel' (b ++ g) = .ok (v, t ++ g)) ∧
    (∀ b kvs v t, objLoop E fuel b kvs = .ok (v, t) → objLoop E fuel' (b ++ g) kvs = .ok (v, t ++ g)) ∧
    (∀ b v t, parseArr E fuel b = .ok (v, t) → parseArr E fuel' (b ++ g) = .ok (v, t ++ g)) ∧
    (∀ b xs v t, arrLoop E fuel b xs = .ok (v, t) → arrLoop E fuel' (b ++ g) xs = .ok (v, t ++ g)) := by
  intro fuel
  induction fuel with
  | zero =>
    intro fuel' _
    refine ⟨?_, ?_, ?_, ?_, ?_⟩ <;> intros <;> rename_i h <;> try (rename_i h2; cases h2)
    all_goals cases h
  | succ f ih =>
    intro fuel' hf
    obtain ⟨f', rfl⟩ : ∃ f', fuel' = f' + 1 := ⟨fuel' - 1, by omega⟩
    obtain ⟨ihV, ihO, ihOL, ihA, ihAL⟩ := ih f' (by omega)
    refine ⟨?_, ?_, ?_, ?_, ?_⟩
    · intro b v t h ht
      cases b with
      | nil => rw [parseValue_nil] at h; cases h
      | cons c r =>
        by_cases h1 : c = 123
        · subst h1
          rw [parseValue_obj] at h
          rw [List.cons_append, parseValue_obj]
          exact ihO r v t h
        · by_cases h2 : c = 91
          · subst h2
            rw [parseValue_arr] at h
            rw [List.cons_append, parseValue_arr]
            exact ihA r v t h
          · by_cases h3 : c = 34
            · subst h3
              rw [parseValue_str] at h
              rw [List.cons_append, parseValue_str]
              cases hs : scan r with
              | none => rw [hs] at h; cases h
              | some p =>
                rw [hs] at h
                cases h
                rw [scan_append g hs]
            · rw [parseValue_lit E f r h1 h2 h3] at h
              rw [List.cons_append, parseValue_lit E f' _ h1 h2 h3]
              refine lit_append E g h ?_
              rcases ht with ht | ht
              · exact ht
              · simp [selfEnding, h1, h2, h3] at ht
    · intro b v t h
      cases hb : sk b with
      | nil => rw [parseObj_nil E f hb] at h; cases h
      | cons c r =>
        have hb' : sk (b ++ g) = c :: (r ++ g) := by rw [sk_append g (by simp [hb]), hb]; rfl
        by_cases hc : c = 125
        · subst hc
          rw [parseObj_end E f hb] at h
          rw [parseObj_end E f' hb']
          cases h; rfl
        · rw [parseObj_loop E f hb hc] at h
          rw [parseObj_loop E f' hb' hc, ← List.cons_append]
          exact ihOL _ _ _ _ h
    · intro b kvs v t h
      rcases objLoop_cases b with hb | ⟨r, hb, hr⟩ | ⟨k, r, hb, hk, hr⟩ | ⟨k, r, r', hb, hk, hr⟩
      · rw [objLoop_nostart E f kvs hb] at h; cases h
      · rw [objLoop_nokey E f kvs hb hr] at h; cases h
      · rw [objLoop_nocolon E f kvs hb hk hr] at h; cases h
      · have hb' : sk (b ++ g) = 34 :: (k ++ 34 :: (r ++ g)) := by
          rw [sk_append g (by simp [hb]), hb]; simp
        have hr' : sk (r ++ g) = 58 :: (r' ++ g) := by
          rw [sk_append g (by simp [hr]), hr]; rfl
        rw [objLoop_member E f kvs hb hk hr] at h
        rw [objLoop_member E f' kvs hb' hk hr']
        rw [Res.bind_eq_ok] at h
        obtain ⟨⟨v1, t1⟩, hv, hn⟩ := h
        have hne : sk r' ≠ [] := by
          intro h0; rw [h0] at hv
          cases f with
          | zero => cases hv
          | succ f => rw [parseValue_nil] at hv; cases hv
        dsimp only at hn
        rw [objNext] at hn
        cases hb1 : sk t1 with
        | nil => rw [hb1] at hn; cases hn
        | cons c t2 =>
          have ht1 : t1 ≠ [] := by rintro rfl; simp [sk] at hb1
          rw [sk_append g hne, ihV _ _ _ hv (.inl ht1), Res.bind_ok]
          dsimp only
          rw [objNext, sk_append g (by simp [hb1]), hb1, List.cons_append]
          rw [hb1] at hn
          dsimp only at hn ⊢
          split at hn
          · rename_i hc; rw [if_pos hc]; exact ihOL _ _ _ _ hn
          · rename_i hc
            rw [if_neg hc]
            split at hn
            · rename_i hc2; rw [if_pos hc2]; cases hn; rfl
            · cases hn
    · intro b v t h
      cases hb : sk b with
      | nil => rw [parseArr_nil E f hb] at h; cases h
      | cons c r =>
        have hb' : sk (b ++ g) = c :: (r ++ g) := by rw [sk_append g (by simp [hb]), hb]; rfl
        by_cases hc : c = 93
        · subst hc
          rw [parseArr_end E f hb] at h
          rw [parseArr_end E f' hb']
          cases h; rfl
        · rw [parseArr_loop E f hb hc] at h
          rw [parseArr_loop E f' hb' hc, ← List.cons_append]
          exact ihAL _ _ _ _ h
    · intro b xs v t h
      rw [arrLoop_eq] at h ⊢
      rw [Res.bind_eq_ok] at h
      obtain ⟨⟨v1, t1⟩, hv, hn⟩ := h
      have hne : sk b ≠ [] := by
        intro h0; rw [h0] at hv
        cases f with
        | zero => cases hv
        | succ f => rw [parseValue_nil] at hv; cases hv
      dsimp only at hn
      rw [arrNext] at hn
      cases hb1 : sk t1 with
      | nil => rw [hb1] at hn; cases hn
      | cons c t2 =>
        have ht1 : t1 ≠ [] := by rintro rfl; simp [sk] at hb1
        rw [sk_append g hne, ihV _ _ _ hv (.inl ht1), Res.bind_ok]
        dsimp only
        rw [arrNext, sk_append g (by simp [hb1]), hb1, List.cons_append]
        rw [hb1] at hn
        dsimp only at hn ⊢
        split at hn
        · rename_i hc; rw [if_pos hc]; exact ihAL _ _ _ _ hn
        · rename_i hc
          rw [if_neg hc]
          split at hn
          · rename_i hc2; rw [if_pos hc2]; cases hn; rfl
          · cases hn

end Dxs.Json
