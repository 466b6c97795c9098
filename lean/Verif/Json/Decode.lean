import Verif.Json.Robust

/-!
# The decoder reads every text of the grammar
-/

namespace Dxs.Json

open Spec

variable (E : Env)

/-- `rest` does not continue a number. -/
def StopsNum (rest : Bytes) : Prop := ∃ c r, rest = c :: r ∧ isNumCh c = false

theorem numByte_facts {c : UInt8} (h : NumByte c) :
    isWB c = false ∧ c ≠ 93 ∧ c ≠ 125 ∧ c ≠ 123 ∧ c ≠ 91 ∧ c ≠ 34 ∧ c ≠ 116 ∧ c ≠ 102 ∧ c ≠ 110 := by
  rcases h with ⟨h1, h2⟩ | rfl | rfl | rfl | rfl | rfl
  · have h3 : 48 ≤ c.toNat := h1
    have h4 : c.toNat ≤ 57 := h2
    refine ⟨?_, ?_, ?_, ?_, ?_, ?_, ?_, ?_, ?_⟩
    · rw [← Bool.not_eq_true, isWB_iff]
      rintro (rfl | rfl | rfl | rfl) <;> simp at h3
    all_goals (rintro rfl; simp at h4)
    simp at h3
  all_goals decide

/-- First byte of a value text. -/
theorem text_head : ∀ (d : JData) (bs : Bytes), Text d bs →
    ∃ c r, bs = c :: r ∧ isWB c = false ∧ c ≠ 93 ∧ c ≠ 125
  | .null, _, h => ⟨_, _, h, by decide, by decide, by decide⟩
  | .tru, _, h => ⟨_, _, h, by decide, by decide, by decide⟩
  | .fls, _, h => ⟨_, _, h, by decide, by decide, by decide⟩
  | .str s, _, h => ⟨34, s ++ [34], by rw [h.2]; rfl, by decide, by decide, by decide⟩
  | .num t, bs, h => by
    obtain ⟨⟨h1, h2, _⟩, rfl⟩ := h
    cases bs with
    | nil => exact absurd rfl h1
    | cons c r =>
      have h3 := numByte_facts (h2 c (by simp))
      exact ⟨c, r, rfl, h3.1, h3.2.1, h3.2.2.1⟩
  | .arr xs, bs, h => by
    rw [Text] at h
    rcases h with ⟨_, w, _, rfl⟩ | ⟨t, _, rfl⟩
    · exact ⟨91, w ++ [93], rfl, by decide, by decide, by decide⟩
    · exact ⟨91, t, rfl, by decide, by decide, by decide⟩
  | .obj kvs, bs, h => by
    rw [Text] at h
    rcases h with ⟨_, w, _, rfl⟩ | ⟨t, _, rfl⟩
    · exact ⟨123, w ++ [125], rfl, by decide, by decide, by decide⟩
    · exact ⟨123, t, rfl, by decide, by decide, by decide⟩

theorem sk_text {w t r : Bytes} {d : JData} (hw : Ws w) (h : Text d t) : sk (w ++ (t ++ r)) = t ++ r := by
  obtain ⟨c, q, rfl, hc, _⟩ := text_head d t h
  rw [sk, dropWhile_ws hw, List.cons_append, dropWhile_not hc]

theorem sk_byte {w r : Bytes} {c : UInt8} (hw : Ws w) (hc : isWB c = false) : sk (w ++ c :: r) = c :: r := by
  rw [sk, dropWhile_ws hw, dropWhile_not hc]

theorem stops_ws {w : Bytes} {c : UInt8} {r : Bytes} (hw : Ws w) (hc : isNumCh c = false) :
    StopsNum (w ++ c :: r) := by
  cases w with
  | nil => exact ⟨c, r, rfl, hc⟩
  | cons a w =>
    refine ⟨a, w ++ c :: r, rfl, ?_⟩
    rcases hw a (by simp) with rfl | rfl | rfl | rfl <;> decide

/-- The elements start, after whitespace, with a byte that is not `]`. -/
theorem textL_head : ∀ (xs : List JData) (bs : Bytes), TextL xs bs →
    ∃ c q w, Ws w ∧ isWB c = false ∧ c ≠ 93 ∧ bs = w ++ c :: q ∧ TextL xs (c :: q)
  | [], bs, h => by rw [TextL] at h; exact h.elim
  | x :: xs, bs, h => by
    rw [TextL] at h
    obtain ⟨w1, t, w2, hw1, hw2, ht, h⟩ := h
    obtain ⟨c, r, hcr, h1, h2, _⟩ := text_head x t ht
    have hnil : Ws [] := by intro c hc; simp at hc
    rcases h with ⟨hx, rfl⟩ | ⟨r', hr, rfl⟩
    · refine ⟨c, r ++ (w2 ++ [93]), w1, hw1, h1, h2, by simp [hcr], ?_⟩
      rw [TextL]
      exact ⟨[], t, w2, hnil, hw2, ht, .inl ⟨hx, by simp [hcr]⟩⟩
    · refine ⟨c, r ++ (w2 ++ 44 :: r'), w1, hw1, h1, h2, by simp [hcr], ?_⟩
      rw [TextL]
      exact ⟨[], t, w2, hnil, hw2, ht, .inr ⟨r', hr, by simp [hcr]⟩⟩
/-- The members start, after whitespace, with a quote. -/
theorem textM_head : ∀ (kvs : List (Bytes × JData)) (bs : Bytes), TextM kvs bs →
    ∃ q w, Ws w ∧ bs = w ++ 34 :: q ∧ TextM kvs (34 :: q)
  | [], bs, h => by rw [TextM] at h; exact h.elim
  | (k, x) :: kvs, bs, h => by
    rw [TextM] at h
    obtain ⟨w1, w2, w3, t, w4, hw1, hw2, hw3, hw4, ht, hk, h⟩ := h
    have hnil : Ws [] := by intro c hc; simp at hc
    rcases h with ⟨hx, rfl⟩ | ⟨r', hr, rfl⟩
    · refine ⟨_, w1, hw1, rfl, ?_⟩
      rw [TextM]
      exact ⟨[], w2, w3, t, w4, hnil, hw2, hw3, hw4, ht, hk, .inl ⟨hx, rfl⟩⟩
    · refine ⟨_, w1, hw1, rfl, ?_⟩
      rw [TextM]
      exact ⟨[], w2, w3, t, w4, hnil, hw2, hw3, hw4, ht, hk, .inr ⟨r', hr, rfl⟩⟩

mutual
theorem parse_text : ∀ (d : JData) (bs : Bytes), Text d bs → ∀ (fuel : Nat) (rest : Bytes),
    3 * bs.length + 3 ≤ fuel → ((∃ t, d = .num t) → StopsNum rest) →
    parseValue E fuel (bs ++ rest) = .ok (denote E d, rest)
  | d, bs, h, 0, rest, hf, _ => by omega
  | .null, bs, h, f + 1, rest, hf, _ => by
    rw [Text] at h; subst h
    rw [List.cons_append, parseValue_lit E f _ (by decide) (by decide) (by decide), parseLit_n, if_pos]
    · rfl
    · exact ⟨rest, rfl⟩
  | .tru, bs, h, f + 1, rest, hf, _ => by
    rw [Text] at h; subst h
    rw [List.cons_append, parseValue_lit E f _ (by decide) (by decide) (by decide), parseLit_t, if_pos]
    · rfl
    · exact ⟨rest, rfl⟩
  | .fls, bs, h, f + 1, rest, hf, _ => by
    rw [Text] at h; subst h
    rw [List.cons_append, parseValue_lit E f _ (by decide) (by decide) (by decide), parseLit_f, if_pos]
    · rfl
    · exact ⟨rest, rfl⟩
  | .str s, bs, h, f + 1, rest, hf, _ => by
    rw [Text] at h
    obtain ⟨h1, rfl⟩ := h
    rw [List.cons_append, List.cons_append, parseValue_str]
    have : scan (s ++ [34] ++ rest) = some (s, rest) := (scan_iff _ _ _).2 ⟨h1, by simp⟩
    rw [this]
    rfl
  | .num t, bs, h, f + 1, rest, hf, hs => by
    rw [Text] at h
    obtain ⟨⟨h1, h2, h3, h4⟩, rfl⟩ := h
    obtain ⟨c, r, rfl, hc⟩ := hs ⟨bs, rfl⟩
    obtain ⟨a, q, rfl⟩ : ∃ a q, bs = a :: q := by
      cases bs with
      | nil => exact absurd rfl h1
      | cons a q => exact ⟨a, q, rfl⟩
    have ha := numByte_facts (h2 a (by simp))
    rw [List.cons_append, parseValue_lit E f _ ha.2.2.2.1 ha.2.2.2.2.1 ha.2.2.2.2.2.1,
      parseLit_num E _ ha.2.2.2.2.2.2.1 ha.2.2.2.2.2.2.2.1 ha.2.2.2.2.2.2.2.2, ← List.cons_append,
      parseNum_stop E r (fun x hx => (isNumCh_iff x).2 (h2 x hx)) hc, numEnd,
      if_neg (by simp only [not_or]; exact ⟨h1, h3, h4⟩), denote]
    split <;> rfl
  | .arr xs, bs, h, f + 1, rest, hf, _ => by
    rw [Text] at h
    rcases h with ⟨rfl, w, hw, rfl⟩ | ⟨t, ht, rfl⟩
    · rw [List.cons_append, List.cons_append, parseValue_arr]
      obtain ⟨f', rfl⟩ : ∃ f', f = f' + 1 := ⟨f - 1, by simp at hf; omega⟩
      rw [parseArr_end E f' (t := rest) (by rw [List.append_assoc]; exact sk_byte hw (by decide))]
      rfl
    · rw [List.cons_append, parseValue_arr]
      simp only [List.length_cons] at hf
      obtain ⟨f', rfl⟩ : ∃ f', f = f' + 1 := ⟨f - 1, by omega⟩
      obtain ⟨c, q, w, hw, h1, h2, rfl, h3⟩ := textL_head xs t ht
      have h5 : sk (w ++ c :: q ++ rest) = c :: (q ++ rest) := by
        rw [List.append_assoc]; exact sk_byte hw h1
      rw [parseArr_loop E f' h5 h2, ← List.cons_append]
      have h6 := parse_textL xs (c :: q) h3 f' rest [] (by simp at hf ⊢; omega)
      rw [h6]; rfl
  | .obj kvs, bs, h, f + 1, rest, hf, _ => by
    rw [Text] at h
    rcases h with ⟨rfl, w, hw, rfl⟩ | ⟨t, ht, rfl⟩
    · rw [List.cons_append, List.cons_append, parseValue_obj]
      obtain ⟨f', rfl⟩ : ∃ f', f = f' + 1 := ⟨f - 1, by simp at hf; omega⟩
      rw [parseObj_end E f' (t := rest) (by rw [List.append_assoc]; exact sk_byte hw (by decide))]
      rfl
    · rw [List.cons_append, parseValue_obj]
      simp only [List.length_cons] at hf
      obtain ⟨f', rfl⟩ : ∃ f', f = f' + 1 := ⟨f - 1, by omega⟩
      obtain ⟨q, w, hw, rfl, h3⟩ := textM_head kvs t ht
      have h5 : sk (w ++ 34 :: q ++ rest) = 34 :: (q ++ rest) := by
        rw [List.append_assoc]; exact sk_byte hw (by decide)
      rw [parseObj_loop E f' h5 (by decide), ← List.cons_append]
      have h6 := parse_textM kvs (34 :: q) h3 f' rest [] (by simp at hf ⊢; omega)
      rw [h6]; rfl
termination_by d _ _ _ _ => sizeOf d
theorem parse_textL : ∀ (xs : List JData) (bs : Bytes), TextL xs bs → ∀ (fuel : Nat) (rest : Bytes) (acc : List Val),
    3 * bs.length + 4 ≤ fuel →
    arrLoop E fuel (bs ++ rest) acc = .ok (.arr (acc ++ denoteL E xs), rest)
  | [], bs, h, _, _, _, _ => by rw [TextL] at h; exact h.elim
  | x :: xs, bs, h, 0, _, _, hf => by omega
  | x :: xs, bs, h, f + 1, rest, acc, hf => by
    rw [TextL] at h
    obtain ⟨w1, t, w2, hw1, hw2, ht, h⟩ := h
    rcases h with ⟨rfl, rfl⟩ | ⟨r, hr, rfl⟩
    · have e : w1 ++ (t ++ (w2 ++ [93])) ++ rest = w1 ++ (t ++ (w2 ++ 93 :: rest)) := by simp
      rw [e, arrLoop_eq, sk_text hw1 ht, parse_text x t ht f (w2 ++ 93 :: rest) (by simp at hf; omega)
        (fun _ => stops_ws hw2 (by decide)), Res.bind_ok]
      dsimp only
      rw [arrNext, sk_byte hw2 (by decide)]
      dsimp only
      rw [if_neg (by decide), if_pos (by decide)]
      rfl
    · have e : w1 ++ (t ++ (w2 ++ 44 :: r)) ++ rest = w1 ++ (t ++ (w2 ++ 44 :: (r ++ rest))) := by simp
      rw [e, arrLoop_eq, sk_text hw1 ht, parse_text x t ht f (w2 ++ 44 :: (r ++ rest)) (by simp at hf; omega)
        (fun _ => stops_ws hw2 (by decide)), Res.bind_ok]
      dsimp only
      rw [arrNext, sk_byte hw2 (by decide)]
      dsimp only
      rw [if_pos (by decide), parse_textL xs r hr f rest _ (by simp at hf; omega)]
      simp [denoteL]
termination_by xs _ _ _ _ _ => sizeOf xs
theorem parse_textM : ∀ (kvs : List (Bytes × JData)) (bs : Bytes), TextM kvs bs →
    ∀ (fuel : Nat) (rest : Bytes) (acc : List (Bytes × Val)), 3 * bs.length + 4 ≤ fuel →
    objLoop E fuel (bs ++ rest) acc = .ok (.obj false (acc ++ denoteM E kvs), rest)
  | [], bs, h, _, _, _, _ => by rw [TextM] at h; exact h.elim
  | (k, x) :: kvs, bs, h, 0, _, _, hf => by omega
  | (k, x) :: kvs, bs, h, f + 1, rest, acc, hf => by
    rw [TextM] at h
    obtain ⟨w1, w2, w3, t, w4, hw1, hw2, hw3, hw4, ht, hk, h⟩ := h
    rcases h with ⟨rfl, rfl⟩ | ⟨r, hr, rfl⟩
    · have e : w1 ++ 34 :: (k ++ 34 :: (w2 ++ 58 :: (w3 ++ (t ++ (w4 ++ [125]))))) ++ rest =
        w1 ++ 34 :: (k ++ 34 :: (w2 ++ 58 :: (w3 ++ (t ++ (w4 ++ 125 :: rest))))) := by simp
      rw [e, objLoop_member E f acc (sk_byte hw1 (by decide)) hk (sk_byte hw2 (by decide)),
        sk_text hw3 ht, parse_text x t ht f (w4 ++ 125 :: rest) (by simp at hf; omega)
        (fun _ => stops_ws hw4 (by decide)), Res.bind_ok]
      dsimp only
      rw [objNext, sk_byte hw4 (by decide)]
      dsimp only
      rw [if_neg (by decide), if_pos (by decide)]
      rfl
    · have e : w1 ++ 34 :: (k ++ 34 :: (w2 ++ 58 :: (w3 ++ (t ++ (w4 ++ 44 :: r))))) ++ rest =
        w1 ++ 34 :: (k ++ 34 :: (w2 ++ 58 :: (w3 ++ (t ++ (w4 ++ 44 :: (r ++ rest)))))) := by simp
      rw [e, objLoop_member E f acc (sk_byte hw1 (by decide)) hk (sk_byte hw2 (by decide)),
        sk_text hw3 ht, parse_text x t ht f (w4 ++ 44 :: (r ++ rest)) (by simp at hf; omega)
        (fun _ => stops_ws hw4 (by decide)), Res.bind_ok]
      dsimp only
      rw [objNext, sk_byte hw4 (by decide)]
      dsimp only
      rw [if_pos (by decide), parse_textM kvs r hr f rest _ (by simp at hf; omega)]
      simp [denoteM]
termination_by kvs _ _ _ _ _ => sizeOf kvs
end

/-- The whole decoder on a text surrounded by whitespace. -/
theorem newValue_text (d : JData) {w1 t w2 : Bytes} (hw1 : Ws w1) (hw2 : Ws w2) (ht : Text d t)
    (hn : (∃ t, d = .num t) → w2 ≠ []) : newValueFromJson E (w1 ++ t ++ w2) = .ok (denote E d) := by
  unfold newValueFromJson
  rw [skipWB_eq, List.append_assoc, sk_text hw1 ht]
  dsimp only
  rw [parse_text E d t ht _ w2 (by simp; omega), Res.bind_ok]
  · dsimp only
    rw [skipWB_eq]
    dsimp only
    have : sk w2 = [] := dropWhile_ws_only hw2
    rw [this]; rfl
  · intro hd
    cases w2 with
    | nil => exact absurd rfl (hn hd)
    | cons a w =>
      refine ⟨a, w, rfl, ?_⟩
      rcases hw2 a (by simp) with rfl | rfl | rfl | rfl <;> decide

end Dxs.Json
