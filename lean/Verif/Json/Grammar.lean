import Verif.Json.Decode

/-! # The language of the JSON decoder

What `NewValueFromJson` accepts, and as which value, written as a grammar: the texts of RFC 8259 (with the names of members ending at the first quote) and, besides them, `inf` and `nan` with or without a sign in
any case, and every three bytes that begin with `n`. -/

namespace Dxs.Json.Spec

/-- The three letters, small or capital. -/
def Word (l0 l1 l2 : UInt8) (w : Bytes) : Prop := ∃ a b c, w = [a, b, c] ∧ (a = l0 ∨ a = l0 - 32) ∧ (b = l1 ∨ b = l1 - 32) ∧ (c = l2 ∨ c = l2 - 32)

/-- Nothing, `-` or `+`. -/
def Sign (s : Bytes) : Prop := s = [] ∨ s = [45] ∨ s = [43]

mutual
/-- `Item E v t r`: the text `t`, when `r` follows, stands for the value `v`. -/
inductive Item (E : Env) : Val → Bytes → Bytes → Prop
  | null (r : Bytes) : Item E .null [110, 117, 108, 108] r
  | tru (r : Bytes) : Item E .tru [116, 114, 117, 101] r
  | fls (r : Bytes) : Item E .fls [102, 97, 108, 115, 101] r
  | str (s r : Bytes) : StrBody s → Item E (denote E (.str s)) (34 :: s ++ [34]) r
  | num (t : Bytes) (c : UInt8) (r : Bytes) : NumLike t → ¬ NumByte c → Item E (denote E (.num t)) t (c :: r)
  | inf (s w r : Bytes) : Sign s → Word 105 110 102 w → Item E .inf (s ++ w) r
  | nan (s w r : Bytes) : Sign s → Word 110 97 110 w → (s = [] → w.head? ≠ some 110) → Item E .nan (s ++ w) r
  | three (x y : UInt8) (r : Bytes) : ¬ (x = 97 ∧ y = 110) → ¬ [110, 117, 108, 108] <+: [110, x, y] ++ r → Item E .nan [110, x, y] r
  | arr0 (w r : Bytes) : Ws w → Item E (.arr []) (91 :: w ++ [93]) r
  | arr (xs : List Val) (t r : Bytes) : Items E xs t r → Item E (.arr xs) (91 :: t) r
  | obj0 (w r : Bytes) : Ws w → Item E (.obj false []) (123 :: w ++ [125]) r
  | obj (kvs : List (Bytes × Val)) (t r : Bytes) : Members E kvs t r → Item E (.obj false kvs) (123 :: t) r
/-- Elements, with the closing bracket. -/
inductive Items (E : Env) : List Val → Bytes → Bytes → Prop
  | last (w1 t w2 r : Bytes) (v : Val) : Ws w1 → Ws w2 → Item E v t (w2 ++ 93 :: r) → Items E [v] (w1 ++ (t ++ (w2 ++ [93]))) r
  | more (w1 t w2 u r : Bytes) (v : Val) (vs : List Val) : Ws w1 → Ws w2 → Item E v t (w2 ++ 44 :: (u ++ r)) → Items E vs u r → Items E (v :: vs) (w1 ++ (t ++ (w2 ++ 44 :: u))) r
/-- Members, with the closing brace. -/
inductive Members (E : Env) : List (Bytes × Val) → Bytes → Bytes → Prop
  | last (w1 k w2 w3 t w4 r : Bytes) (v : Val) : Ws w1 → Ws w2 → Ws w3 → Ws w4 → 34 ∉ k → Item E v t (w4 ++ 125 :: r) →
      Members E [(k, v)] (w1 ++ 34 :: (k ++ 34 :: (w2 ++ 58 :: (w3 ++ (t ++ (w4 ++ [125])))))) r
  | more (w1 k w2 w3 t w4 u r : Bytes) (v : Val) (kvs : List (Bytes × Val)) : Ws w1 → Ws w2 → Ws w3 → Ws w4 → 34 ∉ k → Item E v t (w4 ++ 44 :: (u ++ r)) → Members E kvs u r →
      Members E ((k, v) :: kvs) (w1 ++ 34 :: (k ++ 34 :: (w2 ++ 58 :: (w3 ++ (t ++ (w4 ++ 44 :: u)))))) r
end

end Spec

open Spec
variable {E : Env}

theorem fold_i (c : UInt8) : (if 65 ≤ c ∧ c ≤ 90 then c + 32 else c) = 105 ↔ c = 105 ∨ c = 105 - 32 := by
  obtain ⟨⟨c⟩⟩ := c; revert c; decide +kernel
theorem fold_n (c : UInt8) : (if 65 ≤ c ∧ c ≤ 90 then c + 32 else c) = 110 ↔ c = 110 ∨ c = 110 - 32 := by
  obtain ⟨⟨c⟩⟩ := c; revert c; decide +kernel
theorem fold_f (c : UInt8) : (if 65 ≤ c ∧ c ≤ 90 then c + 32 else c) = 102 ↔ c = 102 ∨ c = 102 - 32 := by
  obtain ⟨⟨c⟩⟩ := c; revert c; decide +kernel
theorem fold_a (c : UInt8) : (if 65 ≤ c ∧ c ≤ 90 then c + 32 else c) = 97 ↔ c = 97 ∨ c = 97 - 32 := by
  obtain ⟨⟨c⟩⟩ := c; revert c; decide +kernel

theorem fold_inf {w : Bytes} : foldIs w [105, 110, 102] = true ↔ Word 105 110 102 w := by
  unfold foldIs Word
  rw [beq_iff_eq]
  constructor
  · intro h
    rcases w with _ | ⟨a, _ | ⟨b, _ | ⟨c, _ | ⟨d, w⟩⟩⟩⟩ <;> simp only [List.map_cons, List.map_nil, List.cons.injEq, reduceCtorEq, and_false, and_true] at h
    exact ⟨a, b, c, rfl, (fold_i a).1 h.1, (fold_n b).1 h.2.1, (fold_f c).1 h.2.2⟩
  · rintro ⟨a, b, c, rfl, h1, h2, h3⟩
    simp only [List.map_cons, List.map_nil]
    rw [(fold_i a).2 h1, (fold_n b).2 h2, (fold_f c).2 h3]

theorem fold_nan {w : Bytes} : foldIs w [110, 97, 110] = true ↔ Word 110 97 110 w := by
  unfold foldIs Word
  rw [beq_iff_eq]
  constructor
  · intro h
    rcases w with _ | ⟨a, _ | ⟨b, _ | ⟨c, _ | ⟨d, w⟩⟩⟩⟩ <;> simp only [List.map_cons, List.map_nil, List.cons.injEq, reduceCtorEq, and_false, and_true] at h
    exact ⟨a, b, c, rfl, (fold_n a).1 h.1, (fold_a b).1 h.2.1, (fold_n c).1 h.2.2⟩
  · rintro ⟨a, b, c, rfl, h1, h2, h3⟩
    simp only [List.map_cons, List.map_nil]
    rw [(fold_n a).2 h1, (fold_a b).2 h2, (fold_n c).2 h3]

theorem sign_num {s : Bytes} (h : Sign s) : ∀ x ∈ s, isNumCh x = true := by
  rcases h with rfl | rfl | rfl <;> simp [isNumCh]

/-- The first byte of an item. -/
theorem item_head {v : Val} {t r : Bytes} (h : Item E v t r) : ∃ c q, t = c :: q ∧ isWB c = false ∧ c ≠ 93 ∧ c ≠ 125 := by
  cases h with
  | null | tru | fls | three => exact ⟨_, _, rfl, by decide, by decide, by decide⟩
  | str s | arr0 | arr | obj0 | obj => exact ⟨_, _, rfl, by decide, by decide, by decide⟩
  | num _ c r h =>
    obtain ⟨h1, h2, _⟩ := h
    cases t with
    | nil => exact absurd rfl h1
    | cons c r =>
      have h3 := numByte_facts (h2 c (by simp))
      exact ⟨c, r, rfl, h3.1, h3.2.1, h3.2.2.1⟩
  | inf s w _ h1 h2 =>
    obtain ⟨a, b, c, rfl, ha, _⟩ := h2
    rcases h1 with rfl | rfl | rfl
    · rcases ha with rfl | rfl <;> exact ⟨_, _, rfl, by decide, by decide, by decide⟩
    · exact ⟨_, _, rfl, by decide, by decide, by decide⟩
    · exact ⟨_, _, rfl, by decide, by decide, by decide⟩
  | nan s w _ h1 h2 =>
    obtain ⟨a, b, c, rfl, ha, _⟩ := h2
    rcases h1 with rfl | rfl | rfl
    · rcases ha with rfl | rfl <;> exact ⟨_, _, rfl, by decide, by decide, by decide⟩
    · exact ⟨_, _, rfl, by decide, by decide, by decide⟩
    · exact ⟨_, _, rfl, by decide, by decide, by decide⟩

theorem sk_item {w t r : Bytes} {v : Val} {r' : Bytes} (hw : Ws w) (h : Item E v t r') : sk (w ++ (t ++ r)) = t ++ r := by
  obtain ⟨c, q, rfl, hc, _⟩ := item_head h
  rw [sk, dropWhile_ws hw, List.cons_append, dropWhile_not hc]

theorem sk_sk (b : Bytes) : sk (sk b) = sk b := by
  induction b with
  | nil => rfl
  | cons c b ih =>
    by_cases h : isWB c = true
    · simp only [sk, List.dropWhile_cons, h, if_true] at ih ⊢; exact ih
    · simp [sk, h]

theorem members_head {kvs : List (Bytes × Val)} {t r : Bytes} (h : Members E kvs t r) : ∃ k r1 r2, sk (t ++ r) = 34 :: (k ++ 34 :: r1) ∧ 34 ∉ k ∧ sk r1 = 58 :: r2 := by
  cases h with
  | last w1 k w2 w3 s w4 _ v hw1 hw2 hw3 hw4 hk hi =>
    refine ⟨k, w2 ++ 58 :: (w3 ++ (s ++ (w4 ++ [125])) ++ r), _, ?_, hk, sk_byte hw2 (by decide)⟩
    rw [List.append_assoc, List.cons_append, sk_byte hw1 (by decide)]; simp
  | more w1 k w2 w3 s w4 u _ v vs hw1 hw2 hw3 hw4 hk hi hs =>
    refine ⟨k, w2 ++ 58 :: (w3 ++ (s ++ (w4 ++ 44 :: u)) ++ r), _, ?_, hk, sk_byte hw2 (by decide)⟩
    rw [List.append_assoc, List.cons_append, sk_byte hw1 (by decide)]; simp

/-- A sign and a word that is no number: what the number loop does. -/
theorem num_word {s w r : Bytes} (hs : Sign s) {a b c : UInt8} (hw : w = [a, b, c]) (ha : isNumCh a = false) (h3 : s = [] → a ≠ 116 ∧ a ≠ 102 ∧ a ≠ 110 ∧ a ≠ 123 ∧ a ≠ 91 ∧ a ≠ 34) (f : Nat) :
    parseValue E (f + 1) (s ++ w ++ r) = if foldIs w [105, 110, 102] then .ok (.inf, r) else if foldIs w [110, 97, 110] then .ok (.nan, r) else .err .jsonInvalid := by
  subst hw
  have e : parseValue E (f + 1) (s ++ [a, b, c] ++ r) = parseNum E (s ++ a :: (b :: c :: r)) := by
    rcases hs with rfl | rfl | rfl
    · obtain ⟨h1, h2, h3, h4, h5, h6⟩ := h3 rfl
      rw [List.nil_append, List.cons_append, parseValue_lit E f _ h4 h5 h6, parseLit_num E _ h1 h2 h3]; rfl
    · exact (parseValue_lit E f _ (by decide) (by decide) (by decide)).trans (parseLit_num E _ (by decide) (by decide) (by decide))
    · exact (parseValue_lit E f _ (by decide) (by decide) (by decide)).trans (parseLit_num E _ (by decide) (by decide) (by decide))
  rw [e, parseNum_stop E _ (sign_num hs) ha, numEnd, if_pos (show s = [] ∨ s = [45] ∨ s = [43] from hs), if_pos (by simp)]
  rfl

mutual
theorem item_parse : ∀ {v : Val} {t r : Bytes}, Item E v t r → ∀ f, 3 * t.length + 3 ≤ f → parseValue E f (t ++ r) = .ok (v, r)
  | v, t, r, h, 0, hf => by omega
  | _, _, r, .null _, f + 1, hf => by
    rw [List.cons_append, parseValue_lit E f _ (by decide) (by decide) (by decide), parseLit_n, if_pos]
    · rfl
    · exact ⟨r, rfl⟩
  | _, _, r, .tru _, f + 1, hf => by
    rw [List.cons_append, parseValue_lit E f _ (by decide) (by decide) (by decide), parseLit_t, if_pos]
    · rfl
    · exact ⟨r, rfl⟩
  | _, _, r, .fls _, f + 1, hf => by
    rw [List.cons_append, parseValue_lit E f _ (by decide) (by decide) (by decide), parseLit_f, if_pos]
    · rfl
    · exact ⟨r, rfl⟩
  | _, _, r, .str s _ h, f + 1, hf => parse_text E (.str s) _ (by rw [Text]; exact ⟨h, rfl⟩) (f + 1) r hf (by simp)
  | _, _, _, .num t c r h hc, f + 1, hf => parse_text E (.num t) _ (by rw [Text]; exact ⟨h, rfl⟩) (f + 1) (c :: r) hf (fun _ => ⟨c, r, rfl, by
      rw [← Bool.not_eq_true, isNumCh_iff]; exact hc⟩)
  | _, _, r, .inf s w _ hs hw, f + 1, hf => by
    obtain ⟨a, b, c, rfl, ha, _⟩ := id hw
    rw [num_word hs rfl (by rcases ha with rfl | rfl <;> decide) (fun _ => by rcases ha with rfl | rfl <;> decide), if_pos (fold_inf.2 hw)]
  | _, _, r, .nan s w _ hs hw hn, f + 1, hf => by
    obtain ⟨a, b, c, rfl, ha, _⟩ := id hw
    rw [num_word hs rfl (by rcases ha with rfl | rfl <;> decide) (fun h => by
      have := hn h
      rcases ha with rfl | rfl
      · simp at this
      · decide), if_neg, if_pos (fold_nan.2 hw)]
    rw [fold_inf]
    rintro ⟨_, _, _, e, h, _⟩
    cases e
    rcases ha with rfl | rfl <;> revert h <;> decide
  | _, _, r, .three x y _ h1 h2, f + 1, hf => by
    rw [List.cons_append, parseValue_lit E f _ (by decide) (by decide) (by decide), parseLit_n, if_neg (show ¬ [110, 117, 108, 108] <+: 110 :: ([x, y] ++ r) from h2), if_pos]
    · rfl
    · refine ⟨by simp, ?_⟩
      rintro ⟨q, e⟩
      simp at e
      exact h1 ⟨e.1.symm, e.2.1.symm⟩
  | _, _, r, .arr0 w _ hw, f + 1, hf => by
    rw [List.cons_append, List.cons_append, parseValue_arr]
    obtain ⟨f', rfl⟩ : ∃ f', f = f' + 1 := ⟨f - 1, by simp at hf; omega⟩
    rw [parseArr_end E f' (t := r) (by rw [List.append_assoc]; exact sk_byte hw (by decide))]
  | _, _, r, .obj0 w _ hw, f + 1, hf => by
    rw [List.cons_append, List.cons_append, parseValue_obj]
    obtain ⟨f', rfl⟩ : ∃ f', f = f' + 1 := ⟨f - 1, by simp at hf; omega⟩
    rw [parseObj_end E f' (t := r) (by rw [List.append_assoc]; exact sk_byte hw (by decide))]
  | _, _, r, .arr xs t _ h, f + 1, hf => by
    rw [List.cons_append, parseValue_arr]
    simp only [List.length_cons] at hf
    obtain ⟨f', rfl⟩ : ∃ f', f = f' + 1 := ⟨f - 1, by omega⟩
    obtain ⟨c, q, hsk, h2⟩ : ∃ c q, sk (t ++ r) = c :: q ∧ c ≠ 93 := by
      cases h with
      | last w1 s w2 _ v hw1 hw2 hi =>
        obtain ⟨c, q, hc, _, h93, _⟩ := item_head hi
        refine ⟨c, q ++ ((w2 ++ [93]) ++ r), ?_, h93⟩
        rw [List.append_assoc, List.append_assoc, sk_item hw1 hi, hc]; simp
      | more w1 s w2 u _ v vs hw1 hw2 hi hs =>
        obtain ⟨c, q, hc, _, h93, _⟩ := item_head hi
        refine ⟨c, q ++ ((w2 ++ 44 :: u) ++ r), ?_, h93⟩
        rw [List.append_assoc, List.append_assoc, sk_item hw1 hi, hc]; simp
    rw [parseArr_loop E f' hsk h2]
    have h6 := items_parse h f' [] (by omega)
    obtain ⟨f'', rfl⟩ : ∃ f'', f' = f'' + 1 := ⟨f' - 1, by omega⟩
    rw [arrLoop_eq, hsk] at h6
    rw [arrLoop_eq, ← hsk, sk_sk, hsk, h6]
    rfl
  | _, _, r, .obj kvs t _ h, f + 1, hf => by
    rw [List.cons_append, parseValue_obj]
    simp only [List.length_cons] at hf
    obtain ⟨f', rfl⟩ : ∃ f', f = f' + 1 := ⟨f - 1, by omega⟩
    have h6 := members_parse h f' [] (by omega)
    obtain ⟨k, r1, r2, hsk, hk, h2⟩ := members_head h
    obtain ⟨f'', rfl⟩ : ∃ f'', f' = f'' + 1 := ⟨f' - 1, by omega⟩
    rw [objLoop_member E f'' [] hsk hk h2] at h6
    rw [parseObj_loop E _ hsk (by decide), ← hsk, objLoop_member E f'' [] ((sk_sk _).trans hsk) hk h2, h6]
    rfl
theorem items_parse : ∀ {vs : List Val} {t r : Bytes}, Items E vs t r → ∀ f acc, 3 * t.length + 4 ≤ f → arrLoop E f (t ++ r) acc = .ok (.arr (acc ++ vs), r)
  | _, _, _, _, 0, _, hf => by omega
  | _, _, r, .last w1 t w2 _ v hw1 hw2 h, f + 1, acc, hf => by
    have e : w1 ++ (t ++ (w2 ++ [93])) ++ r = w1 ++ (t ++ (w2 ++ 93 :: r)) := by simp
    rw [e, arrLoop_eq, sk_item hw1 h, item_parse h f (by simp at hf; omega), Res.bind_ok]
    dsimp only
    rw [arrNext, sk_byte hw2 (by decide)]
    dsimp only
    rw [if_neg (by decide), if_pos (by decide)]
  | _, _, r, .more w1 t w2 u _ v vs hw1 hw2 h hs, f + 1, acc, hf => by
    have e : w1 ++ (t ++ (w2 ++ 44 :: u)) ++ r = w1 ++ (t ++ (w2 ++ 44 :: (u ++ r))) := by simp
    rw [e, arrLoop_eq, sk_item hw1 h, item_parse h f (by simp at hf; omega), Res.bind_ok]
    dsimp only
    rw [arrNext, sk_byte hw2 (by decide)]
    dsimp only
    rw [if_pos (by decide), items_parse hs f _ (by simp at hf; omega)]
    simp
theorem members_parse : ∀ {kvs : List (Bytes × Val)} {t r : Bytes}, Members E kvs t r → ∀ f acc, 3 * t.length + 4 ≤ f → objLoop E f (t ++ r) acc = .ok (.obj false (acc ++ kvs), r)
  | _, _, _, _, 0, _, hf => by omega
  | _, _, r, .last w1 k w2 w3 t w4 _ v hw1 hw2 hw3 hw4 hk h, f + 1, acc, hf => by
    have e : w1 ++ 34 :: (k ++ 34 :: (w2 ++ 58 :: (w3 ++ (t ++ (w4 ++ [125]))))) ++ r =
      w1 ++ 34 :: (k ++ 34 :: (w2 ++ 58 :: (w3 ++ (t ++ (w4 ++ 125 :: r))))) := by simp
    rw [e, objLoop_member E f acc (sk_byte hw1 (by decide)) hk (sk_byte hw2 (by decide)), sk_item hw3 h, item_parse h f (by simp at hf; omega), Res.bind_ok]
    dsimp only
    rw [objNext, sk_byte hw4 (by decide)]
    dsimp only
    rw [if_neg (by decide), if_pos (by decide)]
  | _, _, r, .more w1 k w2 w3 t w4 u _ v kvs hw1 hw2 hw3 hw4 hk h hs, f + 1, acc, hf => by
    have e : w1 ++ 34 :: (k ++ 34 :: (w2 ++ 58 :: (w3 ++ (t ++ (w4 ++ 44 :: u))))) ++ r =
      w1 ++ 34 :: (k ++ 34 :: (w2 ++ 58 :: (w3 ++ (t ++ (w4 ++ 44 :: (u ++ r)))))) := by simp
    rw [e, objLoop_member E f acc (sk_byte hw1 (by decide)) hk (sk_byte hw2 (by decide)), sk_item hw3 h, item_parse h f (by simp at hf; omega), Res.bind_ok]
    dsimp only
    rw [objNext, sk_byte hw4 (by decide)]
    dsimp only
    rw [if_pos (by decide), members_parse hs f _ (by simp at hf; omega)]
    simp
end

theorem sk_split (b : Bytes) : ∃ w, Ws w ∧ b = w ++ sk b := by
  induction b with
  | nil => exact ⟨[], by simp [Ws], rfl⟩
  | cons c b ih =>
    by_cases h : isWB c = true
    · obtain ⟨w, hw, e⟩ := ih
      refine ⟨c :: w, ?_, ?_⟩
      · intro x hx
        rcases List.mem_cons.1 hx with rfl | hx
        · exact (isWB_iff _).1 h
        · exact hw x hx
      · simp only [sk, List.dropWhile_cons, h, if_true] at e ⊢
        rw [List.cons_append, ← e]
    · exact ⟨[], by simp [Ws], by simp [sk, h]⟩

theorem ws_append {w1 w2 : Bytes} (h1 : Ws w1) (h2 : Ws w2) : Ws (w1 ++ w2) := by
  intro c hc
  rcases List.mem_append.1 hc with h | h
  · exact h1 c h
  · exact h2 c h

theorem items_ws {w t r : Bytes} {vs : List Val} (hw : Ws w) (h : Items E vs t r) : Items E vs (w ++ t) r := by
  cases h with
  | last w1 s w2 _ v hw1 hw2 hi =>
    have := Items.last (w ++ w1) s w2 r v (ws_append hw hw1) hw2 hi
    simpa using this
  | more w1 s w2 u _ v vs hw1 hw2 hi hs =>
    have := Items.more (w ++ w1) s w2 u r v vs (ws_append hw hw1) hw2 hi hs
    simpa using this

theorem members_ws {w t r : Bytes} {kvs : List (Bytes × Val)} (hw : Ws w) (h : Members E kvs t r) : Members E kvs (w ++ t) r := by
  cases h with
  | last w1 k w2 w3 s w4 _ v hw1 hw2 hw3 hw4 hk hi =>
    have := Members.last (w ++ w1) k w2 w3 s w4 r v (ws_append hw hw1) hw2 hw3 hw4 hk hi
    simpa using this
  | more w1 k w2 w3 s w4 u _ v vs hw1 hw2 hw3 hw4 hk hi hs =>
    have := Members.more (w ++ w1) k w2 w3 s w4 u r v vs (ws_append hw hw1) hw2 hw3 hw4 hk hi hs
    simpa using this

/-- A number that goes on to the end of the input. -/
def Endless (v : Val) (b t : Bytes) : Prop := v = .nil ∧ t = [] ∧ b ≠ [] ∧ ∀ c ∈ b, NumByte c

theorem num_item {b : Bytes} {v : Val} {t : Bytes} (hb : b ≠ []) (h1 : b.head? ≠ some 110) (e : parseNum E b = .ok (v, t)) : Endless v b t ∨ ∃ s, b = s ++ t ∧ Item E v s t := by
  rcases split_num b with h | ⟨p, c, r, rfl, hp, hc⟩
  · rw [parseNum_all E h] at e
    cases e
    exact .inl ⟨rfl, rfl, hb, fun c hc => (isNumCh_iff c).1 (h c hc)⟩
  · right
    have hc' : ¬ NumByte c := by rw [← isNumCh_iff, hc]; decide
    rw [parseNum_stop E r hp hc, numEnd] at e
    split at e
    · rename_i hs
      split at e
      · rename_i hl
        have e3 : (c :: r).take 3 ++ (c :: r).drop 3 = c :: r := List.take_append_drop 3 _
        split at e
        · rename_i hw
          cases e
          exact ⟨p ++ (c :: r).take 3, by rw [List.append_assoc, e3], Item.inf p _ _ hs (fold_inf.1 hw)⟩
        · split at e
          · rename_i hw
            cases e
            refine ⟨p ++ (c :: r).take 3, by rw [List.append_assoc, e3], Item.nan p _ _ hs (fold_nan.1 hw) ?_⟩
            rintro rfl
            simpa using h1
          · cases e
      · cases e
    · rename_i hs
      simp only [not_or] at hs
      have hn : NumLike p := ⟨hs.1, fun x hx => (isNumCh_iff x).1 (hp x hx), hs.2.1, hs.2.2⟩
      have := Item.num (E := E) p c r hn hc'
      rw [denote] at this
      split at e
      · rename_i h46
        cases e
        rw [if_pos h46] at this
        exact ⟨p, rfl, this⟩
      · rename_i h46
        cases e
        rw [if_neg h46] at this
        exact ⟨p, rfl, this⟩

theorem lit_item {c : UInt8} {r : Bytes} {v : Val} {t : Bytes} (e : parseLit E c (c :: r) = .ok (v, t)) : Endless v (c :: r) t ∨ ∃ s, c :: r = s ++ t ∧ Item E v s t := by
  by_cases h1 : c = 116
  · subst h1
    rw [parseLit_t] at e
    split at e
    · rename_i h
      obtain ⟨q, h⟩ := h
      rw [← h] at e ⊢
      cases e
      exact .inr ⟨[116, 114, 117, 101], rfl, .tru _⟩
    · cases e
  by_cases h2 : c = 102
  · subst h2
    rw [parseLit_f] at e
    split at e
    · rename_i h
      obtain ⟨q, h⟩ := h
      rw [← h] at e ⊢
      cases e
      exact .inr ⟨[102, 97, 108, 115, 101], rfl, .fls _⟩
    · cases e
  by_cases h3 : c = 110
  · subst h3
    rw [parseLit_n] at e
    split at e
    · rename_i h
      obtain ⟨q, h⟩ := h
      rw [← h] at e ⊢
      cases e
      exact .inr ⟨[110, 117, 108, 108], rfl, .null _⟩
    · rename_i hn
      split at e
      · rename_i h
        cases e
        obtain ⟨hl, h⟩ := h
        rcases r with _ | ⟨x, _ | ⟨y, r⟩⟩
        · simp at hl
        · simp at hl
        · exact .inr ⟨[110, x, y], rfl, .three x y r (fun ⟨hx, hy⟩ => h (by subst hx hy; exact ⟨r, rfl⟩)) hn⟩
      · cases e
  · rw [parseLit_num E _ h1 h2 h3] at e
    exact num_item (by simp) (by simpa using h3) e

theorem parse_item (E : Env) : ∀ fuel : Nat,
    (∀ b v t, parseValue E fuel b = .ok (v, t) → Endless v b t ∨ ∃ s, b = s ++ t ∧ Item E v s t) ∧
    (∀ b v t, parseObj E fuel b = .ok (v, t) → ∃ s, b = s ++ t ∧ Item E v (123 :: s) t) ∧
    (∀ b kvs v t, objLoop E fuel b kvs = .ok (v, t) → ∃ ms s, v = .obj false (kvs ++ ms) ∧ b = s ++ t ∧ Members E ms s t) ∧
    (∀ b v t, parseArr E fuel b = .ok (v, t) → ∃ s, b = s ++ t ∧ Item E v (91 :: s) t) ∧
    (∀ b xs v t, arrLoop E fuel b xs = .ok (v, t) → ∃ vs s, v = .arr (xs ++ vs) ∧ b = s ++ t ∧ Items E vs s t)
  | 0 => by
    refine ⟨?_, ?_, ?_, ?_, ?_⟩ <;> intros <;> simp_all [parseValue, parseObj, objLoop, parseArr, arrLoop]
  | f + 1 => by
    obtain ⟨hv, ho, hol, ha, hal⟩ := parse_item E f
    refine ⟨?_, ?_, ?_, ?_, ?_⟩
    · intro b v t e
      cases b with
      | nil => rw [parseValue_nil] at e; cases e
      | cons c r =>
      by_cases h1 : c = 123
      · subst h1
        rw [parseValue_obj] at e
        obtain ⟨s, rfl, hi⟩ := ho _ _ _ e
        exact .inr ⟨123 :: s, rfl, hi⟩
      by_cases h2 : c = 91
      · subst h2
        rw [parseValue_arr] at e
        obtain ⟨s, rfl, hi⟩ := ha _ _ _ e
        exact .inr ⟨91 :: s, rfl, hi⟩
      by_cases h3 : c = 34
      · subst h3
        rw [parseValue_str] at e
        split at e
        · rename_i p hp
          obtain ⟨hs, rfl⟩ := (scan_iff _ p.1 p.2).1 hp
          cases e
          exact .inr ⟨34 :: p.1 ++ [34], by simp, .str p.1 _ hs⟩
        · cases e
      · rw [parseValue_lit E f r h1 h2 h3] at e
        exact lit_item e
    · intro b v t e
      obtain ⟨w, hw, hb⟩ := sk_split b
      cases hs : sk b with
      | nil => rw [parseObj_nil E f hs] at e; cases e
      | cons c q =>
      by_cases hc : c = 125
      · subst hc
        rw [parseObj_end E f hs] at e
        cases e
        exact ⟨w ++ [125], by rw [hb, hs]; simp, .obj0 w _ hw⟩
      · rw [parseObj_loop E f hs hc] at e
        obtain ⟨ms, s, rfl, h2, h3⟩ := hol _ _ _ _ e
        refine ⟨w ++ s, by rw [hb, hs, h2]; simp, ?_⟩
        exact .obj _ _ _ (members_ws hw h3)
    · intro b kvs v t e
      rcases objLoop_cases b with h | ⟨r, h, hr⟩ | ⟨k, r, h, hk, hr⟩ | ⟨k, r, r', h, hk, hr⟩
      · rw [objLoop_nostart E f kvs h] at e; cases e
      · rw [objLoop_nokey E f kvs h hr] at e; cases e
      · rw [objLoop_nocolon E f kvs h hk hr] at e; cases e
      · rw [objLoop_member E f kvs h hk hr] at e
        obtain ⟨⟨x, o⟩, hx, e⟩ := Res.bind_eq_ok.1 e
        dsimp only at e
        obtain ⟨w1, hw1, hb⟩ := sk_split b
        obtain ⟨w2, hw2, hr2⟩ := sk_split r
        obtain ⟨w3, hw3, hr3⟩ := sk_split r'
        obtain ⟨w4, hw4, ho4⟩ := sk_split o
        rcases hv _ _ _ hx with ⟨-, rfl, -⟩ | ⟨s, hs, hi⟩
        · rw [objNext] at e; cases e
        · rw [objNext] at e
          have hb2 : b = w1 ++ 34 :: (k ++ 34 :: (w2 ++ 58 :: (w3 ++ (s ++ (w4 ++ sk o))))) := by
            rw [← ho4, ← hs, ← hr3, ← hr, ← hr2, ← h, ← hb]
          cases hso : sk o with
          | nil => rw [hso] at e; cases e
          | cons c q =>
            rw [hso] at e
            dsimp only at e
            rw [hso] at hb2 ho4
            split at e
            · rename_i hc
              subst hc
              obtain ⟨ms, u, rfl, hq, hm⟩ := hol _ _ _ _ e
              subst hq
              rw [ho4] at hi
              refine ⟨(k, x) :: ms, _, by simp, ?_, .more w1 k w2 w3 s w4 u t x ms hw1 hw2 hw3 hw4 hk hi hm⟩
              rw [hb2]; simp
            · split at e
              · rename_i hc
                subst hc
                cases e
                rw [ho4] at hi
                refine ⟨[(k, x)], _, rfl, ?_, .last w1 k w2 w3 s w4 t x hw1 hw2 hw3 hw4 hk hi⟩
                rw [hb2]; simp
              · cases e
    · intro b v t e
      obtain ⟨w, hw, hb⟩ := sk_split b
      cases hs : sk b with
      | nil => rw [parseArr_nil E f hs] at e; cases e
      | cons c q =>
      by_cases hc : c = 93
      · subst hc
        rw [parseArr_end E f hs] at e
        cases e
        exact ⟨w ++ [93], by rw [hb, hs]; simp, .arr0 w _ hw⟩
      · rw [parseArr_loop E f hs hc] at e
        obtain ⟨ms, s, rfl, h2, h3⟩ := hal _ _ _ _ e
        refine ⟨w ++ s, by rw [hb, hs, h2]; simp, ?_⟩
        exact .arr _ _ _ (items_ws hw h3)
    · intro b xs v t e
      rw [arrLoop_eq] at e
      obtain ⟨⟨x, o⟩, hx, e⟩ := Res.bind_eq_ok.1 e
      dsimp only at e
      obtain ⟨w1, hw1, hb⟩ := sk_split b
      obtain ⟨w4, hw4, ho4⟩ := sk_split o
      rcases hv _ _ _ hx with ⟨-, rfl, -⟩ | ⟨s, hs, hi⟩
      · rw [arrNext] at e; cases e
      · rw [arrNext] at e
        have hb2 : b = w1 ++ (s ++ (w4 ++ sk o)) := by rw [← ho4, ← hs, ← hb]
        cases hso : sk o with
        | nil => rw [hso] at e; cases e
        | cons c q =>
          rw [hso] at e
          dsimp only at e
          rw [hso] at hb2 ho4
          split at e
          · rename_i hc
            subst hc
            obtain ⟨ms, u, rfl, hq, hm⟩ := hal _ _ _ _ e
            subst hq
            rw [ho4] at hi
            refine ⟨x :: ms, _, by simp, ?_, .more w1 s w4 u t x ms hw1 hw4 hi hm⟩
            rw [hb2]; simp
          · split at e
            · rename_i hc
              subst hc
              cases e
              rw [ho4] at hi
              refine ⟨[x], _, rfl, ?_, .last w1 s w4 t x hw1 hw4 hi⟩
              rw [hb2]; simp
            · cases e

/-- The decoder accepts exactly the texts of the grammar, white space around them, and, as nil, a number up to the end of the input. -/
theorem newValue_iff (E : Env) (b : Bytes) (v : Val) : newValueFromJson E b = .ok v ↔
    (∃ w1 t w2, Ws w1 ∧ Ws w2 ∧ b = w1 ++ t ++ w2 ∧ Item E v t w2) ∨ (v = .nil ∧ ∃ w t, Ws w ∧ b = w ++ t ∧ t ≠ [] ∧ ∀ c ∈ t, NumByte c) := by
  unfold newValueFromJson
  rw [skipWB_eq]
  dsimp only
  constructor
  · intro e
    obtain ⟨⟨x, o⟩, hx, e⟩ := Res.bind_eq_ok.1 e
    dsimp only at e
    rw [skipWB_eq] at e
    dsimp only at e
    obtain ⟨w1, hw1, hb⟩ := sk_split b
    obtain ⟨w2, hw2, ho⟩ := sk_split o
    split at e
    · cases e
    · rename_i hl
      cases e
      have hl : sk o = [] := by simpa using hl
      rw [hl, List.append_nil] at ho
      subst ho
      rcases (parse_item E _).1 _ _ _ hx with ⟨h1, h2, h3, h4⟩ | ⟨s, hs, hi⟩
      · exact .inr ⟨h1, w1, sk b, hw1, hb, h3, h4⟩
      · exact .inl ⟨w1, s, o, hw1, hw2, by rw [List.append_assoc, ← hs, ← hb], hi⟩
  · rintro (⟨w1, t, w2, hw1, hw2, rfl, hi⟩ | ⟨rfl, w, t, hw, rfl, ht, hn⟩)
    · rw [List.append_assoc, sk_item hw1 hi, item_parse hi _ (by simp; omega), Res.bind_ok]
      dsimp only
      rw [skipWB_eq]
      dsimp only
      rw [show sk w2 = [] from dropWhile_ws_only hw2]
      rfl
    · cases t with
      | nil => exact absurd rfl ht
      | cons c r =>
        have hc := numByte_facts (hn c (by simp))
        rw [sk_byte hw hc.1, parseValue_lit E _ _ hc.2.2.2.1 hc.2.2.2.2.1 hc.2.2.2.2.2.1, parseLit_num E _ hc.2.2.2.2.2.2.1 hc.2.2.2.2.2.2.2.1 hc.2.2.2.2.2.2.2.2,
          parseNum_all E (fun x hx => (isNumCh_iff x).2 (hn x hx)), Res.bind_ok]
        rfl

end Dxs.Json
