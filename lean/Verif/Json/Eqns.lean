import Verif.Json.Strings

/-!
# The parser, step by step

Equations for each parser function in terms of the shape of the input.
-/

namespace Dxs.Json

open MsgPack (sliceFrom)
open Bson (at_)

/-- `b` without leading whitespace. -/
abbrev sk (b : Bytes) : Bytes := b.dropWhile isWB

theorem skipWB_eq (b : Bytes) : skipWB b = (sk b, (skipWB b).2) := by
  rw [sk, ← skipWB_fst]

theorem headIs_nil (c : UInt8) : headIs [] c = .ok false := rfl
theorem headIs_cons (x : UInt8) (r : Bytes) (c : UInt8) : headIs (x :: r) c = .ok (x == c) := rfl

variable (E : Env)

theorem parseValue_nil (f : Nat) : parseValue E (f + 1) [] = .err (.json .noObjBack 0 []) := by
  rw [parseValue]; simp

theorem parseValue_obj (f : Nat) (r : Bytes) : parseValue E (f + 1) (123 :: r) = parseObj E f r := by
  rw [parseValue, if_neg (by simp), at_zero_cons, Res.bind_ok, if_pos (by decide), sliceFrom_one,
    Res.bind_ok]

theorem parseValue_arr (f : Nat) (r : Bytes) : parseValue E (f + 1) (91 :: r) = parseArr E f r := by
  rw [parseValue, if_neg (by simp), at_zero_cons, Res.bind_ok, if_neg (by decide), if_pos (by decide),
    sliceFrom_one, Res.bind_ok]

theorem parseValue_str (f : Nat) (r : Bytes) : parseValue E (f + 1) (34 :: r) =
    match scan r with
    | some p => .ok (strVal E p.1, p.2)
    | none => .err (.json .noStrEnd 0 []) := by
  rw [parseValue, if_neg (by simp), at_zero_cons, Res.bind_ok, if_neg (by decide), if_neg (by decide),
    if_pos (by decide), sliceFrom_one, Res.bind_ok, parseString_eq, strRes]
  cases scan r <;> rfl

theorem parseValue_lit (f : Nat) {c : UInt8} (r : Bytes) (h1 : c ≠ 123) (h2 : c ≠ 91) (h3 : c ≠ 34) :
    parseValue E (f + 1) (c :: r) = parseLit E c (c :: r) := by
  rw [parseValue, if_neg (by simp), at_zero_cons, Res.bind_ok, if_neg (by simpa), if_neg (by simpa),
    if_neg (by simpa)]

theorem parseObj_nil (f : Nat) {b : Bytes} (h : sk b = []) :
    parseObj E (f + 1) b = .err (.json .noObjBack (skipWB b).2 b) := by
  rw [parseObj, skipWB_eq, h]; rfl

theorem parseObj_end (f : Nat) {b t : Bytes} (h : sk b = 125 :: t) :
    parseObj E (f + 1) b = .ok (.obj false [], t) := by
  rw [parseObj, skipWB_eq, h]
  simp [at_zero_cons, sliceFrom_one]

theorem parseObj_loop (f : Nat) {b t : Bytes} {c : UInt8} (h : sk b = c :: t) (hc : c ≠ 125) :
    parseObj E (f + 1) b = objLoop E f (c :: t) [] := by
  rw [parseObj, skipWB_eq, h]
  simp [at_zero_cons, hc]

/-- What follows a member value. -/
def objNext (f : Nat) (kvs : List (Bytes × Val)) (b : Bytes) : Res (Val × Bytes) :=
  match sk b with
  | [] => .err (.json .noObjBack (skipWB b).2 b)
  | c :: t => if c = 44 then objLoop E f t kvs
    else if c = 125 then .ok (.obj false kvs, t)
    else .err (.json .noValueSplit (skipWB b).2 b)

theorem objLoop_nostart (f : Nat) (kvs : List (Bytes × Val)) {b : Bytes} (h : (sk b).head? ≠ some 34) :
    objLoop E (f + 1) b kvs = .err (.json .noKeyStart (skipWB b).2 b) := by
  rw [objLoop, skipWB_eq]
  cases hb : sk b with
  | nil => rfl
  | cons c t =>
    have : c ≠ 34 := by rintro rfl; simp [hb] at h
    simp [headIs_cons, this]

theorem objLoop_nokey (f : Nat) (kvs : List (Bytes × Val)) {b r : Bytes} (h : sk b = 34 :: r) (hr : 34 ∉ r) :
    objLoop E (f + 1) b kvs = .err (.json .noKeyStart r.length []) := by
  rw [objLoop, skipWB_eq, h]
  simp [headIs_cons, sliceFrom_one, parseKey_none hr]

theorem objLoop_nocolon (f : Nat) (kvs : List (Bytes × Val)) {b k r : Bytes} (h : sk b = 34 :: (k ++ 34 :: r))
    (hk : 34 ∉ k) (hr : (sk r).head? ≠ some 58) :
    objLoop E (f + 1) b kvs = .err (.json .noKVSplit (skipWB r).2 r) := by
  rw [objLoop, skipWB_eq, h]
  simp only [headIs_cons, Res.bind_ok, beq_self_eq_true, Bool.not_true, Bool.false_eq_true, if_false,
    sliceFrom_one, parseKey_ok hk]
  rw [skipWB_eq r]
  cases hb : sk r with
  | nil => rfl
  | cons c t =>
    have : c ≠ 58 := by rintro rfl; simp [hb] at hr
    simp [headIs_cons, this]

theorem objLoop_member (f : Nat) (kvs : List (Bytes × Val)) {b k r r' : Bytes}
    (h : sk b = 34 :: (k ++ 34 :: r)) (hk : 34 ∉ k) (hr : sk r = 58 :: r') :
    objLoop E (f + 1) b kvs = (parseValue E f (sk r') >>= fun p => objNext E f (kvs ++ [(k, p.1)]) p.2) := by
  rw [objLoop, skipWB_eq, h]
  simp only [headIs_cons, Res.bind_ok, beq_self_eq_true, Bool.not_true, Bool.false_eq_true, if_false,
    sliceFrom_one, parseKey_ok hk]
  rw [skipWB_eq r, hr]
  simp only [headIs_cons, Res.bind_ok, beq_self_eq_true, Bool.not_true, Bool.false_eq_true, if_false,
    sliceFrom_one, skipWB_fst]
  congr 1
  funext p
  obtain ⟨v, t⟩ := p
  dsimp only
  rw [objNext, skipWB_eq t]
  cases hb : sk t with
  | nil => have hb' : t.dropWhile isWB = [] := hb; simp [hb']
  | cons c t' => have hb' : t.dropWhile isWB = c :: t' := hb; simp [hb', at_zero_cons, sliceFrom_one]

/-- Every input of the member loop falls in one of these cases. -/
theorem objLoop_cases (b : Bytes) :
    (sk b).head? ≠ some 34 ∨
    (∃ r, sk b = 34 :: r ∧ 34 ∉ r) ∨
    (∃ k r, sk b = 34 :: (k ++ 34 :: r) ∧ 34 ∉ k ∧ (sk r).head? ≠ some 58) ∨
    (∃ k r r', sk b = 34 :: (k ++ 34 :: r) ∧ 34 ∉ k ∧ sk r = 58 :: r') := by
  by_cases h1 : (sk b).head? = some 34
  · right
    obtain ⟨r, hr⟩ : ∃ r, sk b = 34 :: r := by
      cases hb : sk b with
      | nil => simp [hb] at h1
      | cons c t => simp [hb] at h1; exact ⟨t, by rw [h1]⟩
    rcases split_quote r with ⟨k, t, hk, rfl⟩ | h
    · right
      by_cases h2 : (sk t).head? = some 58
      · right
        cases hb : sk t with
        | nil => simp [hb] at h2
        | cons c t' => simp [hb] at h2; exact ⟨k, t, t', hr, hk, by rw [hb, h2]⟩
      · exact .inl ⟨k, t, hr, hk, h2⟩
    · exact .inl ⟨r, hr, h⟩
  · exact .inl h1

theorem parseArr_nil (f : Nat) {b : Bytes} (h : sk b = []) :
    parseArr E (f + 1) b = .err (.json .noArrBack (skipWB b).2 b) := by
  rw [parseArr, skipWB_eq, h]; rfl

theorem parseArr_end (f : Nat) {b t : Bytes} (h : sk b = 93 :: t) :
    parseArr E (f + 1) b = .ok (.arr [], t) := by
  rw [parseArr, skipWB_eq, h]
  simp [at_zero_cons, sliceFrom_one]

theorem parseArr_loop (f : Nat) {b t : Bytes} {c : UInt8} (h : sk b = c :: t) (hc : c ≠ 93) :
    parseArr E (f + 1) b = arrLoop E f (c :: t) [] := by
  rw [parseArr, skipWB_eq, h]
  simp [at_zero_cons, hc]

/-- What follows an element. -/
def arrNext (f : Nat) (xs : List Val) (b : Bytes) : Res (Val × Bytes) :=
  match sk b with
  | [] => .err (.json .noArrBack (skipWB b).2 b)
  | c :: t => if c = 44 then arrLoop E f t xs
    else if c = 93 then .ok (.arr xs, t)
    else .err (.json .noValueSplit (skipWB b).2 b)

theorem arrLoop_eq (f : Nat) (xs : List Val) (b : Bytes) :
    arrLoop E (f + 1) b xs = (parseValue E f (sk b) >>= fun p => arrNext E f (xs ++ [p.1]) p.2) := by
  rw [arrLoop, skipWB_fst]
  congr 1
  funext p
  obtain ⟨v, t⟩ := p
  dsimp only
  rw [arrNext, skipWB_eq t]
  cases hb : sk t with
  | nil => rfl
  | cons c t' => simp [at_zero_cons, sliceFrom_one]

/-! ## Literals and numbers -/

theorem isNumCh_iff (c : UInt8) : isNumCh c = true ↔ Spec.NumByte c := by
  simp [isNumCh, Spec.NumByte, UInt8.le_iff_toNat_le]; grind

/-- What the number loop returns when it stops at a byte that cannot belong to a number. -/
def numEnd (p : Bytes) (c : UInt8) (r : Bytes) : Res (Val × Bytes) :=
  if p = [] ∨ p = [45] ∨ p = [43] then
    if (c :: r).length ≥ 3 then
      if foldIs ((c :: r).take 3) [105, 110, 102] then .ok (.inf, (c :: r).drop 3)
      else if foldIs ((c :: r).take 3) [110, 97, 110] then .ok (.nan, (c :: r).drop 3)
      else .err .jsonInvalid
    else .err .jsonInvalid
  else if 46 ∈ p then .ok (.ofF32 (E.f64to32 ((E.strToFloat p).getD 0)), c :: r)
  else .ok (.int 0 ((E.strToInt p).getD 0), c :: r)

theorem noNumber_eq (p r : Bytes) (h : p ≠ [] ∨ r ≠ []) :
    noNumber (p ++ r) p.length = .ok (decide (p = [] ∨ p = [45] ∨ p = [43])) := by
  rcases p with _ | ⟨a, _ | ⟨b, p⟩⟩
  · simp [noNumber]
  · by_cases h1 : a = 45 <;> by_cases h2 : a = 43 <;> simp [noNumber, at_, h1, h2]
  · simp [noNumber]

theorem numLoop_stop (p r : Bytes) (c : UInt8) (hc : isNumCh c = false) :
    numLoop E (p ++ c :: r) p.length (decide (46 ∈ p)) (c :: r) = numEnd E p c r := by
  have h46 : c ≠ 46 := by rintro rfl; revert hc; decide
  rw [numLoop]
  rw [if_neg (by rw [hc]; decide), noNumber_eq _ _ (by simp), Res.bind_ok, numEnd]
  by_cases hw : p = [] ∨ p = [45] ∨ p = [43]
  · rw [if_pos (by simpa using hw), if_pos hw, sliceFrom_ok (by simp), Res.bind_ok]
    simp only [List.drop_left]
    by_cases hl : (c :: r).length ≥ 3
    · rw [if_pos hl, if_pos hl, upTo_ok hl, Res.bind_ok, sliceFrom_ok (by simp at hl ⊢; omega)]
      simp
    · rw [if_neg hl, if_neg hl]
  · rw [if_neg (by simpa using hw), if_neg hw, upTo_ok (by simp), sliceFrom_ok (by simp)]
    by_cases h4 : 46 ∈ p <;> simp [h4, h46]

theorem numLoop_end (p b : Bytes) (i : Nat) (isf : Bool) (hb : b.all isNumCh) :
    numLoop E p i isf b = .ok (.nil, []) := by
  induction b generalizing i isf with
  | nil => rfl
  | cons c r ih =>
    simp at hb
    rw [numLoop, if_pos hb.1]
    exact ih _ _ (by simpa using hb.2)

theorem numLoop_run (p q r : Bytes) (h : ∀ c ∈ q, isNumCh c = true) :
    numLoop E (p ++ q ++ r) p.length (decide (46 ∈ p)) (q ++ r) =
      numLoop E (p ++ q ++ r) (p ++ q).length (decide (46 ∈ p ++ q)) r := by
  induction q generalizing p with
  | nil => simp
  | cons c q ih =>
    rw [List.cons_append, numLoop, if_pos (h c (by simp))]
    have h1 := ih (p ++ [c]) (fun x hx => h x (by simp [hx]))
    have e1 : p ++ [c] ++ q ++ r = p ++ c :: q ++ r := by simp
    have e2 : p ++ [c] ++ q = p ++ c :: q := by simp
    rw [e1, e2] at h1
    rw [← h1]
    have e3 : (p ++ [c]).length = p.length + 1 := by simp
    rw [e3]
    congr 1
    by_cases h4 : 46 ∈ p
    · simp [h4]
    · by_cases h5 : c = 46
      · simp [h5]
      · have h6 : (46 : UInt8) ≠ c := fun h => h5 h.symm
        simp [h4, h5, h6]

theorem parseNum_all {b : Bytes} (h : ∀ c ∈ b, isNumCh c = true) : parseNum E b = .ok (.nil, []) := by
  rw [parseNum]; exact numLoop_end E b b 0 false (by simpa using h)

theorem parseNum_stop {p : Bytes} {c : UInt8} (r : Bytes) (hp : ∀ x ∈ p, isNumCh x = true)
    (hc : isNumCh c = false) : parseNum E (p ++ c :: r) = numEnd E p c r := by
  rw [parseNum]
  have h1 := numLoop_run E [] p (c :: r) hp
  simp only [List.nil_append, List.length_nil] at h1
  rw [show decide ((46 : UInt8) ∈ ([] : Bytes)) = false by simp] at h1
  rw [h1, numLoop_stop E p r c hc]

theorem split_num (b : Bytes) : (∀ c ∈ b, isNumCh c = true) ∨
    ∃ p c r, b = p ++ c :: r ∧ (∀ x ∈ p, isNumCh x = true) ∧ isNumCh c = false := by
  induction b with
  | nil => left; simp
  | cons a b ih =>
    cases ha : isNumCh a with
    | false => right; exact ⟨[], a, b, rfl, by simp, ha⟩
    | true =>
      rcases ih with h | ⟨p, c, r, rfl, hp, hc⟩
      · left; simpa [ha] using h
      · right; exact ⟨a :: p, c, r, rfl, by simpa [ha] using hp, hc⟩

theorem parseLit_num {c : UInt8} (b : Bytes) (h1 : c ≠ 116) (h2 : c ≠ 102) (h3 : c ≠ 110) :
    parseLit E c b = parseNum E b := by
  simp [parseLit, h1, h2, h3]

/-- The literal branch for `true` and `false`. -/
theorem parseLit_t (b : Bytes) : parseLit E 116 b =
    if [116, 114, 117, 101] <+: b then .ok (.tru, b.drop 4) else .err .jsonInvalid := by
  rw [parseLit, if_pos (by decide)]
  by_cases hl : b.length < 4
  · rw [if_pos hl, if_neg (fun h => by have := h.length_le; simp at this; omega)]
  · rw [if_neg hl, upTo_ok (by omega), Res.bind_ok, sliceFrom_ok (by omega)]
    by_cases hp : [116, 114, 117, 101] <+: b
    · rw [if_pos hp, if_neg]
      · rfl
      · rw [List.prefix_iff_eq_take] at hp; simp at hp; simp [← hp]
    · rw [if_neg hp, if_pos]
      rw [List.prefix_iff_eq_take] at hp; simp at hp ⊢; exact fun h => hp h.symm

theorem parseLit_f (b : Bytes) : parseLit E 102 b =
    if [102, 97, 108, 115, 101] <+: b then .ok (.fls, b.drop 5) else .err .jsonInvalid := by
  rw [parseLit, if_neg (by decide), if_pos (by decide)]
  by_cases hl : b.length < 5
  · rw [if_pos hl, if_neg (fun h => by have := h.length_le; simp at this; omega)]
  · rw [if_neg hl, upTo_ok (by omega), Res.bind_ok, sliceFrom_ok (by omega)]
    by_cases hp : [102, 97, 108, 115, 101] <+: b
    · rw [if_pos hp, if_neg]
      · rfl
      · rw [List.prefix_iff_eq_take] at hp; simp at hp; simp [← hp]
    · rw [if_neg hp, if_pos]
      rw [List.prefix_iff_eq_take] at hp; simp at hp ⊢; exact fun h => hp h.symm

theorem notNull_eq (b : Bytes) : notNull b = .ok (decide (¬ [110, 117, 108, 108] <+: b)) := by
  rw [notNull]
  by_cases hl : b.length < 4
  · rw [if_pos hl]
    have : ¬ [110, 117, 108, 108] <+: b := fun h => by have := h.length_le; simp at this; omega
    simp [this]
  · rw [if_neg hl, upTo_ok (by omega), Res.bind_ok]
    by_cases hp : [110, 117, 108, 108] <+: b
    · have h2 := hp
      rw [List.prefix_iff_eq_take] at h2; simp at h2; simp [← h2, hp]
    · have h2 := hp
      rw [List.prefix_iff_eq_take] at h2; simp at h2; simp [hp]; exact fun h => h2 h.symm

/-- The literal branch for `n`. -/
theorem parseLit_n (b : Bytes) : parseLit E 110 b =
    if [110, 117, 108, 108] <+: b then .ok (.null, b.drop 4)
    else if 3 ≤ b.length ∧ ¬ [110, 97, 110] <+: b then .ok (.nan, b.drop 3)
    else .err .jsonInvalid := by
  rw [parseLit, if_neg (by decide), if_neg (by decide), if_pos (by decide), notNull_eq, Res.bind_ok]
  by_cases hp : [110, 117, 108, 108] <+: b
  · have := hp.length_le
    simp at this
    rw [if_neg (by simpa using hp), if_pos hp, sliceFrom_ok (by omega)]
    rfl
  · rw [if_pos (by simpa using hp), if_neg hp]
    by_cases hl : b.length ≥ 3
    · rw [if_pos hl, upTo_ok hl, Res.bind_ok]
      by_cases hn : [110, 97, 110] <+: b
      · rw [if_neg, if_neg (by simp [hn])]
        rw [List.prefix_iff_eq_take] at hn; simp at hn; simp [← hn]
      · rw [if_pos, if_pos ⟨hl, hn⟩, sliceFrom_ok (by omega)]
        · rfl
        · rw [List.prefix_iff_eq_take] at hn; simp at hn ⊢; exact fun h => hn h.symm
    · rw [if_neg hl, if_neg (fun h => hl h.1)]

end Dxs.Json
