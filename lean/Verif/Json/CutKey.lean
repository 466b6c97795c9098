import Verif.Json.Grammar
import Verif.Json.Robust

/-! # The texts that end inside the name of a member

These are the inputs whose error cannot be printed (jsonparse.go:54-62 with the error of jsonparse.go:222-244). -/

namespace Dxs.Json.Spec

mutual
/-- A value that begins but whose text ends inside a name: after the opening quote there is at least one byte, and no quote. -/
inductive CutValue (E : Env) : Bytes → Prop
  | obj (t : Bytes) : CutMembers E t → CutValue E (123 :: t)
  | arr (t : Bytes) : CutItems E t → CutValue E (91 :: t)
/-- The same for members: the first name is cut, or a value inside, or something after the first comma. -/
inductive CutMembers (E : Env) : Bytes → Prop
  | name (w k : Bytes) : Ws w → 34 ∉ k → k ≠ [] → CutMembers E (w ++ 34 :: k)
  | inside (w1 k w2 w3 t : Bytes) : Ws w1 → Ws w2 → Ws w3 → 34 ∉ k → CutValue E t → CutMembers E (w1 ++ 34 :: (k ++ 34 :: (w2 ++ 58 :: (w3 ++ t))))
  | later (w1 k w2 w3 t w4 u : Bytes) (v : Val) : Ws w1 → Ws w2 → Ws w3 → Ws w4 → 34 ∉ k → Item E v t (w4 ++ 44 :: u) → CutMembers E u →
      CutMembers E (w1 ++ 34 :: (k ++ 34 :: (w2 ++ 58 :: (w3 ++ (t ++ (w4 ++ 44 :: u))))))
/-- The same for elements. -/
inductive CutItems (E : Env) : Bytes → Prop
  | inside (w t : Bytes) : Ws w → CutValue E t → CutItems E (w ++ t)
  | later (w1 t w2 u : Bytes) (v : Val) : Ws w1 → Ws w2 → Item E v t (w2 ++ 44 :: u) → CutItems E u → CutItems E (w1 ++ (t ++ (w2 ++ 44 :: u)))
end

end Spec

open Spec
variable {E : Env}

/-- An error that cannot be printed. -/
def Mute {α : Type} (r : Res α) : Prop := ∃ e, r = .err e ∧ errorString e = .panic

theorem mute_json {α : Type} {ty : JET} {i : Nat} {c : Bytes} (h : i ≤ c.length) : ¬ Mute (.err (.json ty i c) : Res α) := by
  rintro ⟨e, he, hp⟩
  cases he
  rw [errorString_panic_iff] at hp
  omega

theorem mute_invalid {α : Type} : ¬ Mute (.err .jsonInvalid : Res α) := by
  rintro ⟨e, he, hp⟩
  cases he
  simp [errorString] at hp

theorem mute_ok {α : Type} {x : α} : ¬ Mute (.ok x) := by rintro ⟨e, he, _⟩; cases he

theorem mute_lit (c : UInt8) (r : Bytes) : ¬ Mute (parseLit E c (c :: r)) := by
  by_cases h1 : c = 116
  · subst h1; rw [parseLit_t]; split
    · exact mute_ok
    · exact mute_invalid
  by_cases h2 : c = 102
  · subst h2; rw [parseLit_f]; split
    · exact mute_ok
    · exact mute_invalid
  by_cases h3 : c = 110
  · subst h3; rw [parseLit_n]; split
    · exact mute_ok
    · split
      · exact mute_ok
      · exact mute_invalid
  rw [parseLit_num E _ h1 h2 h3]
  rcases split_num (c :: r) with h | ⟨p, d, q, e, hp, hd⟩
  · rw [parseNum_all E h]; exact mute_ok
  · rw [e, parseNum_stop E q hp hd, numEnd]
    repeat' split
    all_goals first | exact mute_ok | exact mute_invalid

theorem cutValue_head {t : Bytes} (h : CutValue E t) : ∃ c q, t = c :: q ∧ isWB c = false ∧ c ≠ 93 := by
  cases h <;> exact ⟨_, _, rfl, by decide, by decide⟩

theorem sk_cut {w t : Bytes} (hw : Ws w) (h : CutValue E t) : sk (w ++ t) = t := by
  obtain ⟨c, q, rfl, hc, _⟩ := cutValue_head h
  exact sk_byte hw hc

theorem cutItems_ws {w t : Bytes} (hw : Ws w) (h : CutItems E t) : CutItems E (w ++ t) := by
  cases h with
  | inside w1 s h1 h2 => have := CutItems.inside (w ++ w1) s (ws_append hw h1) h2; simpa using this
  | later w1 s w2 u v h1 h2 h3 h4 => have := CutItems.later (w ++ w1) s w2 u v (ws_append hw h1) h2 h3 h4; simpa using this

theorem cutMembers_ws {w t : Bytes} (hw : Ws w) (h : CutMembers E t) : CutMembers E (w ++ t) := by
  cases h with
  | name w1 k h1 h2 h3 => have := CutMembers.name (E := E) (w ++ w1) k (ws_append hw h1) h2 h3; simpa using this
  | inside w1 k w2 w3 s h1 h2 h3 h4 h5 => have := CutMembers.inside (w ++ w1) k w2 w3 s (ws_append hw h1) h2 h3 h4 h5; simpa using this
  | later w1 k w2 w3 s w4 u v h1 h2 h3 h4 h5 h6 h7 => have := CutMembers.later (w ++ w1) k w2 w3 s w4 u v (ws_append hw h1) h2 h3 h4 h5 h6 h7; simpa using this

theorem cutItems_head {t : Bytes} (h : CutItems E t) : ∃ c q, sk t = c :: q ∧ c ≠ 93 := by
  cases h with
  | inside w s hw h =>
    obtain ⟨c, q, e, _, hc⟩ := cutValue_head h
    exact ⟨c, q, by rw [sk_cut hw h, e], hc⟩
  | later w1 s w2 u v h1 h2 h3 h4 =>
    obtain ⟨c, q, e, _, hc, _⟩ := item_head h3
    exact ⟨c, q ++ (w2 ++ 44 :: u), by rw [sk_item h1 h3, e]; rfl, hc⟩

theorem cutMembers_head {t : Bytes} (h : CutMembers E t) : ∃ q, sk t = 34 :: q := by
  cases h <;> exact ⟨_, sk_byte (by assumption) (by decide)⟩

/-- The loops skip white space first. -/
theorem arrLoop_sk (f : Nat) (b : Bytes) (xs : List Val) : arrLoop E f (sk b) xs = arrLoop E f b xs := by
  cases f with
  | zero => rw [arrLoop, arrLoop]
  | succ f => rw [arrLoop_eq, arrLoop_eq, sk_sk]

mutual
theorem cutValue_mute : ∀ {t : Bytes}, CutValue E t → ∀ f, 3 * t.length + 3 ≤ f → Mute (parseValue E f t)
  | _, _, 0, hf => by omega
  | _, .obj t h, f + 1, hf => by
    simp only [List.length_cons] at hf
    obtain ⟨f', rfl⟩ : ∃ f', f = f' + 1 := ⟨f - 1, by omega⟩
    obtain ⟨q, hq⟩ := cutMembers_head h
    rw [parseValue_obj, parseObj_loop E f' hq (by decide), ← hq]
    exact cutMembers_mute h (sk t) (sk_sk t) f' [] (by omega)
  | _, .arr t h, f + 1, hf => by
    simp only [List.length_cons] at hf
    obtain ⟨f', rfl⟩ : ∃ f', f = f' + 1 := ⟨f - 1, by omega⟩
    obtain ⟨c, q, hq, hc⟩ := cutItems_head h
    rw [parseValue_arr, parseArr_loop E f' hq hc, ← hq, arrLoop_sk]
    exact cutItems_mute h f' [] (by omega)
theorem cutMembers_mute : ∀ {t : Bytes}, CutMembers E t → ∀ b, sk b = sk t → ∀ f acc, 3 * t.length + 4 ≤ f → Mute (objLoop E f b acc)
  | _, _, _, _, 0, _, hf => by omega
  | _, .name w k hw hk hne, b, hb, f + 1, acc, hf => by
    rw [objLoop_nokey E f acc (hb.trans (sk_byte hw (by decide))) hk]
    exact ⟨_, rfl, (errorString_panic_iff _ _ _).2 (List.length_pos_iff.2 hne)⟩
  | _, .inside w1 k w2 w3 t h1 h2 h3 hk h, b, hb, f + 1, acc, hf => by
    rw [objLoop_member E f acc (hb.trans (sk_byte h1 (by decide))) hk (sk_byte h2 (by decide)), sk_cut h3 h]
    obtain ⟨e, he, hp⟩ := cutValue_mute h f (by simp at hf; omega)
    rw [he]
    exact ⟨e, rfl, hp⟩
  | _, .later w1 k w2 w3 t w4 u v h1 h2 h3 h4 hk hi h, b, hb, f + 1, acc, hf => by
    rw [objLoop_member E f acc (hb.trans (sk_byte h1 (by decide))) hk (sk_byte h2 (by decide)), sk_item h3 hi, item_parse hi f (by simp at hf; omega), Res.bind_ok]
    dsimp only
    rw [objNext, sk_byte h4 (by decide)]
    dsimp only
    rw [if_pos (by decide)]
    exact cutMembers_mute h u rfl f _ (by simp at hf; omega)
theorem cutItems_mute : ∀ {t : Bytes}, CutItems E t → ∀ f acc, 3 * t.length + 4 ≤ f → Mute (arrLoop E f t acc)
  | _, _, 0, _, hf => by omega
  | _, .inside w t hw h, f + 1, acc, hf => by
    obtain ⟨e, he, hp⟩ := cutValue_mute h f (by simp at hf; omega)
    rw [arrLoop_eq, sk_cut hw h, he]
    exact ⟨e, rfl, hp⟩
  | _, .later w1 t w2 u v h1 h2 hi h, f + 1, acc, hf => by
    rw [arrLoop_eq, sk_item h1 hi, item_parse hi f (by simp at hf; omega), Res.bind_ok]
    dsimp only
    rw [arrNext, sk_byte h2 (by decide)]
    dsimp only
    rw [if_pos (by decide)]
    exact cutItems_mute h f _ (by simp at hf; omega)
end

theorem mute_cut (E : Env) : ∀ fuel : Nat,
    (∀ b, Mute (parseValue E fuel b) → CutValue E b) ∧
    (∀ b, Mute (parseObj E fuel b) → CutMembers E b) ∧
    (∀ b kvs, Mute (objLoop E fuel b kvs) → CutMembers E b) ∧
    (∀ b, Mute (parseArr E fuel b) → CutItems E b) ∧
    (∀ b xs, Mute (arrLoop E fuel b xs) → CutItems E b) := by
  intro fuel
  induction fuel with
  | zero =>
    refine ⟨?_, ?_, ?_, ?_, ?_⟩ <;> intros <;> rename_i h <;> obtain ⟨e, he, _⟩ := h <;>
      simp only [parseValue, parseObj, objLoop, parseArr, arrLoop, reduceCtorEq] at he
  | succ f ih =>
    obtain ⟨ihV, ihO, ihOL, ihA, ihAL⟩ := ih
    refine ⟨?_, ?_, ?_, ?_, ?_⟩
    · intro b h
      cases b with
      | nil => rw [parseValue_nil] at h; exact absurd h (mute_json (by simp))
      | cons c r =>
        by_cases h1 : c = 123
        · subst h1; rw [parseValue_obj] at h; exact .obj r (ihO r h)
        by_cases h2 : c = 91
        · subst h2; rw [parseValue_arr] at h; exact .arr r (ihA r h)
        by_cases h3 : c = 34
        · subst h3
          rw [parseValue_str] at h
          cases hs : scan r with
          | none => rw [hs] at h; exact absurd h (mute_json (by simp))
          | some p => rw [hs] at h; exact absurd h mute_ok
        · rw [parseValue_lit E f r h1 h2 h3] at h; exact absurd h (mute_lit c r)
    · intro b h
      obtain ⟨w, hw, e⟩ := sk_split b
      cases hb : sk b with
      | nil => rw [parseObj_nil E f hb] at h; exact absurd h (mute_json (skipWB_snd b))
      | cons c t =>
        by_cases hc : c = 125
        · subst hc; rw [parseObj_end E f hb] at h; exact absurd h mute_ok
        · rw [parseObj_loop E f hb hc] at h
          rw [e, hb]
          exact cutMembers_ws hw (ihOL _ _ h)
    · intro b kvs h
      obtain ⟨w, hw, e⟩ := sk_split b
      rcases objLoop_cases b with hs | ⟨r, hs, hr⟩ | ⟨k, r, hs, hk, hr⟩ | ⟨k, r, r', hs, hk, hr⟩
      · rw [objLoop_nostart E f kvs hs] at h; exact absurd h (mute_json (skipWB_snd b))
      · rw [objLoop_nokey E f kvs hs hr] at h
        rw [e, hs]
        refine .name w r hw hr ?_
        rintro rfl
        exact absurd h (mute_json (by simp))
      · rw [objLoop_nocolon E f kvs hs hk hr] at h; exact absurd h (mute_json (skipWB_snd r))
      · rw [objLoop_member E f kvs hs hk hr] at h
        obtain ⟨w2, hw2, e2⟩ := sk_split r
        obtain ⟨w3, hw3, e3⟩ := sk_split r'
        rw [e, hs, e2, hr]
        cases hv : parseValue E f (sk r') with
        | err x =>
          rw [hv] at h
          rw [e3]
          exact .inside w k w2 w3 _ hw hw2 hw3 hk (ihV _ (by rw [hv]; obtain ⟨y, hy, hp⟩ := h; cases hy; exact ⟨_, rfl, hp⟩))
        | panic => rw [hv] at h; obtain ⟨y, hy, _⟩ := h; cases hy
        | loop => rw [hv] at h; obtain ⟨y, hy, _⟩ := h; cases hy
        | ok p =>
          obtain ⟨v, t⟩ := p
          rw [hv, Res.bind_ok] at h
          dsimp only at h
          rw [objNext] at h
          obtain ⟨w4, hw4, e4⟩ := sk_split t
          cases ht : sk t with
          | nil => rw [ht] at h; exact absurd h (mute_json (skipWB_snd t))
          | cons c u =>
            rw [ht] at h
            dsimp only at h
            split at h
            · rename_i hc
              subst hc
              rw [ht] at e4
              rcases (parse_item E f).1 _ _ _ hv with ⟨_, h0, _⟩ | ⟨s, es, hi⟩
              · rw [h0] at ht; cases ht
              · rw [e3, es, e4]
                rw [e4] at hi
                exact .later w k w2 w3 s w4 u v hw hw2 hw3 hw4 hk hi (ihOL _ _ h)
            · split at h
              · exact absurd h mute_ok
              · exact absurd h (mute_json (skipWB_snd t))
    · intro b h
      obtain ⟨w, hw, e⟩ := sk_split b
      cases hb : sk b with
      | nil => rw [parseArr_nil E f hb] at h; exact absurd h (mute_json (skipWB_snd b))
      | cons c t =>
        by_cases hc : c = 93
        · subst hc; rw [parseArr_end E f hb] at h; exact absurd h mute_ok
        · rw [parseArr_loop E f hb hc] at h
          rw [e, hb]
          exact cutItems_ws hw (ihAL _ _ h)
    · intro b xs h
      rw [arrLoop_eq] at h
      obtain ⟨w, hw, e⟩ := sk_split b
      rw [e]
      cases hv : parseValue E f (sk b) with
      | err x =>
        rw [hv] at h
        exact .inside w _ hw (ihV _ (by rw [hv]; obtain ⟨y, hy, hp⟩ := h; cases hy; exact ⟨_, rfl, hp⟩))
      | panic => rw [hv] at h; obtain ⟨y, hy, _⟩ := h; cases hy
      | loop => rw [hv] at h; obtain ⟨y, hy, _⟩ := h; cases hy
      | ok p =>
        obtain ⟨v, t⟩ := p
        rw [hv, Res.bind_ok] at h
        dsimp only at h
        rw [arrNext] at h
        obtain ⟨w4, hw4, e4⟩ := sk_split t
        cases ht : sk t with
        | nil => rw [ht] at h; exact absurd h (mute_json (skipWB_snd t))
        | cons c u =>
          rw [ht] at h
          dsimp only at h
          split at h
          · rename_i hc
            subst hc
            rw [ht] at e4
            rcases (parse_item E f).1 _ _ _ hv with ⟨_, h0, _⟩ | ⟨s, es, hi⟩
            · rw [h0] at ht; cases ht
            · rw [es, e4]
              rw [e4] at hi
              exact .later w s w4 u v hw hw4 hi (ihAL _ _ h)
          · split at h
            · exact absurd h mute_ok
            · exact absurd h (mute_json (skipWB_snd t))

theorem newValue_mute (E : Env) (b : Bytes) : Mute (newValueFromJson E b) ↔ ∃ w t, Ws w ∧ b = w ++ t ∧ CutValue E t := by
  unfold newValueFromJson
  rw [skipWB_eq b]
  dsimp only
  constructor
  · intro h
    obtain ⟨w, hw, e⟩ := sk_split b
    refine ⟨w, sk b, hw, e, (mute_cut E (3 * (sk b).length + 3)).1 _ ?_⟩
    cases hv : parseValue E (3 * (sk b).length + 3) (sk b) with
    | err x => rw [hv] at h; obtain ⟨y, hy, hp⟩ := h; cases hy; exact ⟨_, rfl, hp⟩
    | panic => rw [hv] at h; obtain ⟨y, hy, _⟩ := h; cases hy
    | loop => rw [hv] at h; obtain ⟨y, hy, _⟩ := h; cases hy
    | ok p =>
      obtain ⟨v, t⟩ := p
      rw [hv, Res.bind_ok] at h
      dsimp only at h
      split at h
      · exact absurd h (mute_json (skipWB_snd t))
      · exact absurd h mute_ok
  · rintro ⟨w, t, hw, rfl, h⟩
    rw [sk_cut hw h]
    obtain ⟨e, he, hp⟩ := cutValue_mute h (3 * t.length + 3) (Nat.le_refl _)
    rw [he]
    exact ⟨e, rfl, hp⟩

end Dxs.Json
