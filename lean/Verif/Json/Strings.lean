import Verif.Json.Model
import Verif.Json.Spec

/-!
# The scanners: whitespace, strings, keys
-/

namespace Dxs.Json

open MsgPack (sliceFrom)
open Bson (at_)
open Spec (StrBody Ws tb)

/-! ## Whitespace -/

theorem isWB_iff (c : UInt8) : isWB c = true ↔ c = 0x20 ∨ c = 0x09 ∨ c = 0x0A ∨ c = 0x0D := by
  simp [isWB]; grind

theorem skipLoop_fst (b : Bytes) (i : Nat) : (skipLoop b i).1 = b.dropWhile isWB := by
  induction b generalizing i with
  | nil => rfl
  | cons c r ih =>
    rw [skipLoop, List.dropWhile_cons]
    split <;> simp_all

theorem skipWB_fst (b : Bytes) : (skipWB b).1 = b.dropWhile isWB := by
  unfold skipWB
  cases b with
  | nil => rfl
  | cons c r =>
    dsimp only
    rw [List.dropWhile_cons]
    split
    · rename_i h
      have : isWB c = false := by
        rw [← Bool.not_eq_true, isWB_iff]
        rintro (rfl | rfl | rfl | rfl) <;> exact absurd h (by decide)
      simp [this]
    · split
      · rename_i h; simp_all
      · rename_i h; simp at h; simp [h, skipLoop_fst]

theorem skipLoop_snd (b : Bytes) (i : Nat) (h : 1 ≤ i) :
    (skipLoop b i).2 ≤ b.length + i - 1 := by
  induction b generalizing i with
  | nil => simp [skipLoop]
  | cons c r ih =>
    rw [skipLoop]
    split
    · have := ih (i + 1) (by omega); simp; omega
    · simp; omega

/-- The reported skip length lies inside the input. -/
theorem skipWB_snd (b : Bytes) : (skipWB b).2 ≤ b.length := by
  unfold skipWB
  cases b with
  | nil => simp
  | cons c r =>
    dsimp only
    split
    · simp
    · split
      · simp
      · have := skipLoop_snd r 1 (by omega); simp; omega

theorem dropWhile_ws {w r : Bytes} (hw : Ws w) : (w ++ r).dropWhile isWB = r.dropWhile isWB := by
  induction w with
  | nil => rfl
  | cons c w ih =>
    have hc : isWB c = true := (isWB_iff c).2 (hw c (by simp))
    simp only [List.cons_append, List.dropWhile_cons, hc, if_true]
    exact ih (fun x hx => hw x (by simp [hx]))

theorem dropWhile_not {c : UInt8} {r : Bytes} (h : isWB c = false) :
    (c :: r).dropWhile isWB = c :: r := by
  simp [h]

theorem dropWhile_ws_only {w : Bytes} (hw : Ws w) : w.dropWhile isWB = [] := by
  have := dropWhile_ws (r := []) hw
  simpa using this

/-! ## Slices -/

theorem at_zero_cons (c : UInt8) (r : Bytes) : at_ (c :: r) 0 = .ok c := rfl

theorem at_ok {b : Bytes} {i : Nat} (h : i < b.length) : at_ b i = .ok b[i] := by
  simp [at_, h]

theorem sliceFrom_ok {b : Bytes} {n : Nat} (h : n ≤ b.length) : sliceFrom n b = .ok (b.drop n) := by
  simp [sliceFrom, h]

theorem sliceFrom_one (c : UInt8) (r : Bytes) : sliceFrom 1 (c :: r) = .ok r := by
  simp [sliceFrom]

theorem upTo_ok {b : Bytes} {n : Nat} (h : n ≤ b.length) : upTo n b = .ok (b.take n) := by
  simp [upTo, h]

/-! ## Strings -/

/-- What a string scanner should do: a backslash takes the next byte with it, the first other quote ends
the string. -/
def scan : Bytes → Option (Bytes × Bytes)
  | [] => none
  | [c] => if c = 34 then some ([], []) else none
  | c :: d :: r =>
    if c = 34 then some ([], d :: r)
    else if c = 92 then (scan r).map (fun p => (c :: d :: p.1, p.2))
    else (scan (d :: r)).map (fun p => (c :: p.1, p.2))

theorem scan_quote (r : Bytes) : scan (34 :: r) = some ([], r) := by
  cases r <;> simp [scan]

theorem scan_esc (d : UInt8) (r : Bytes) :
    scan (92 :: d :: r) = (scan r).map (fun p => (92 :: d :: p.1, p.2)) := by
  simp [scan]

theorem scan_char {c : UInt8} (h : c ≠ 34) (h' : c ≠ 92) (r : Bytes) :
    scan (c :: r) = (scan r).map (fun p => (c :: p.1, p.2)) := by
  cases r <;> simp [scan, h, h']

theorem scan_iff (b s t : Bytes) : scan b = some (s, t) ↔ StrBody s ∧ b = s ++ 34 :: t := by
  constructor
  · intro h
    induction b using scan.induct generalizing s with
    | case1 => simp [scan] at h
    | case2 => simp [scan] at h; obtain ⟨rfl, rfl⟩ := h; exact ⟨.nil, rfl⟩
    | case3 c hc => simp [scan, hc] at h
    | case4 d r => simp [scan] at h; obtain ⟨rfl, rfl⟩ := h; exact ⟨.nil, rfl⟩
    | case5 d r hc ih =>
      rw [scan_esc] at h
      simp at h
      obtain ⟨a, ha, rfl⟩ := h
      obtain ⟨h1, rfl⟩ := ih _ ha
      exact ⟨.esc d a h1, rfl⟩
    | case6 c d r hc hc' ih =>
      rw [scan_char hc hc'] at h
      simp at h
      obtain ⟨a, ha, rfl⟩ := h
      obtain ⟨h1, h2⟩ := ih _ ha
      exact ⟨.char c a hc hc' h1, by simp [h2]⟩
  · rintro ⟨h, rfl⟩
    induction h with
    | nil => exact scan_quote t
    | char c r h1 h2 _ ih => rw [List.cons_append, scan_char h1 h2, ih]; rfl
    | esc c r _ ih => rw [List.cons_append, List.cons_append, scan_esc, ih]; rfl

theorem takeWhile_all {p : UInt8 → Bool} {l : Bytes} :
    l.takeWhile p = l ↔ l.all p = true := by
  induction l with
  | nil => simp
  | cons c l ih =>
    rw [List.takeWhile_cons, List.all_cons]
    cases hc : p c <;> simp [← ih]

theorem tb_all {r : Bytes} (h : r.all (· == 92) = true) : tb r = r.length := by
  unfold tb
  rw [takeWhile_all.2 (by simpa using h)]; simp

theorem tb_cons_eq (c : UInt8) (r : Bytes) :
    tb (c :: r) = if r.all (· == 92) then (if c = 92 then r.length + 1 else r.length) else tb r := by
  unfold tb
  rw [List.reverse_cons, List.takeWhile_append]
  have hlen : (r.reverse.takeWhile (· == 92)).length = r.reverse.length ↔ r.all (· == 92) = true := by
    constructor
    · intro h
      have h2 := List.takeWhile_prefix (p := fun x : UInt8 => x == 92) (l := r.reverse)
      have h3 := takeWhile_all.1 (h2.eq_of_length h)
      simpa using h3
    · intro h
      rw [takeWhile_all.2 (by simpa using h)]
  by_cases hr : r.all (· == 92) = true
  · rw [if_pos (hlen.2 hr), if_pos hr]
    by_cases hc : c = 92 <;> simp [hc]
  · rw [if_neg (fun h => hr (hlen.1 h)), if_neg hr]

theorem tb_cons_ne {c : UInt8} (hc : c ≠ 92) (r : Bytes) : tb (c :: r) = tb r := by
  rw [tb_cons_eq]
  split
  · rename_i h; rw [tb_all h]
  · rfl

theorem tb_pair (d : UInt8) (r : Bytes) : tb (92 :: d :: r) % 2 = tb r % 2 := by
  rw [tb_cons_eq, tb_cons_eq]
  by_cases hr : r.all (· == 92) = true
  · by_cases hd : d = 92
    · subst hd
      simp [hr, tb_all hr]; omega
    · simp [hr, hd, tb_all hr]
  · simp [hr]

theorem scan_noquote {b : Bytes} (h : 34 ∉ b) : scan b = none := by
  cases hs : scan b with
  | none => rfl
  | some p =>
    obtain ⟨_, rfl⟩ := (scan_iff b p.1 p.2).1 hs
    simp at h

/-- A quote-free segment followed by a quote: an even number of trailing backslashes ends the string. -/
theorem scan_seg (seg t : Bytes) (h : 34 ∉ seg) :
    scan (seg ++ 34 :: t) = if tb seg % 2 = 0 then some (seg, t)
      else (scan t).map (fun p => (seg ++ 34 :: p.1, p.2)) := by
  induction seg using scan.induct with
  | case1 => simp [tb, scan_quote]
  | case2 => simp at h
  | case3 c hc =>
    by_cases h9 : c = 92
    · subst h9
      have : tb [92] = 1 := by decide
      simp [this, scan_esc]
    · have : tb [c] = 0 := by simp [tb, h9]
      simp [this, scan_char hc h9, scan_quote]
  | case4 => simp at h
  | case5 d r hc ih =>
    rw [tb_pair, List.cons_append, List.cons_append, scan_esc, ih (by simp at h; exact h.2)]
    split
    · rfl
    · cases scan t <;> rfl
  | case6 c d r hc hc' ih =>
    rw [tb_cons_ne hc', List.cons_append, scan_char hc hc', ih (by simp at h ⊢; exact h.2)]
    split
    · rfl
    · cases scan t <;> rfl

theorem tb_concat_ne {l : Bytes} {c : UInt8} (h : c ≠ 92) : tb (l ++ [c]) = 0 := by
  simp [tb, h]

theorem tb_concat (l : Bytes) : tb (l ++ [92]) = tb l + 1 := by
  simp [tb]

theorem tb_le (l : Bytes) : tb l ≤ l.length := by
  unfold tb
  have := (List.takeWhile_sublist (p := fun x : UInt8 => x == 92) (l := l.reverse)).length_le
  simpa using this

/-- The backward loop counts trailing backslashes. -/
theorem backUp_eq (b : Bytes) (i : Nat) (h : i ≤ b.length) : backUp b i = i - tb (b.take i) := by
  induction i with
  | zero => simp [backUp]
  | succ i ih =>
    rw [backUp]
    have hi : i < b.length := by omega
    have ht : b.take (i + 1) = b.take i ++ [b[i]] := by simp
    rw [ht]
    split
    · rename_i h9
      rw [List.getElem?_eq_getElem hi] at h9
      have h9' : b[i] = 92 := by simpa using h9
      rw [h9', tb_concat, ih (by omega)]
      omega
    · rename_i h9
      rw [List.getElem?_eq_getElem hi] at h9
      rw [tb_concat_ne (by simpa using h9)]
      rfl

/-- Splitting at the first quote. -/
theorem quoteIdx_some {b : Bytes} {n : Nat} (h : quoteIdx b = some n) :
    n < b.length ∧ b = b.take n ++ 34 :: b.drop (n + 1) ∧ 34 ∉ b.take n := by
  unfold quoteIdx at h
  rw [List.idxOf?, List.findIdx?_eq_some_iff_getElem] at h
  obtain ⟨hn, h1, h2⟩ := h
  refine ⟨hn, ?_, ?_⟩
  · have : b[n] = 34 := by simpa using h1
    rw [← this, ← List.drop_eq_getElem_cons hn, List.take_append_drop]
  · intro hm
    rw [List.mem_take_iff_getElem] at hm
    obtain ⟨i, hi, he⟩ := hm
    have hi2 : i < n := by omega
    exact h2 i hi2 (by simpa using he)

theorem quoteIdx_none {b : Bytes} (h : quoteIdx b = none) : 34 ∉ b := by
  unfold quoteIdx at h
  rw [List.idxOf?, List.findIdx?_eq_none_iff] at h
  intro hm
  have := h 34 hm
  simp at this

theorem quoteIdx_seg {s : Bytes} (h : 34 ∉ s) (t : Bytes) : quoteIdx (s ++ 34 :: t) = some s.length := by
  unfold quoteIdx
  rw [List.idxOf?, List.findIdx?_eq_some_iff_getElem]
  refine ⟨by simp, by simp, ?_⟩
  intro j hj
  rw [List.getElem_append_left hj]
  intro he
  apply h
  have : s[j] = 34 := by simpa using he
  rw [← this]; exact List.getElem_mem hj

theorem tb_zero_of_last {b : Bytes} {n : Nat} (hn : n < b.length)
    (h : n = 0 ∨ ∃ hx : n - 1 < b.length, b[n - 1] ≠ 92) : tb (b.take n) = 0 := by
  rcases n with _ | n
  · simp [tb]
  · rcases h with h | ⟨hx, h⟩
    · omega
    · have ht : b.take (n + 1) = b.take n ++ [b[n]] := by simp
      rw [ht]; exact tb_concat_ne h

/-- What `parseJsonString` returns. -/
def strRes (b : Bytes) : Res (Bytes × Bytes) :=
  match scan b with
  | some p => .ok p
  | none => .err (.json .noStrEnd 0 [])

theorem strLoop_eq (pre : Bytes) : ∀ (fuel : Nat) (b : Bytes) (n : Nat), b.length < fuel →
    quoteIdx b = some n → 0 < n → b[n - 1]? = some 92 →
    strLoop (pre ++ b) fuel b n = match scan b with
      | some p => .ok (pre ++ p.1, p.2)
      | none => .err (.json .noStrEnd 0 []) := by
  intro fuel
  induction fuel generalizing pre with
  | zero => intro b n h; omega
  | succ fuel ih =>
    intro b n hf hq hn h9
    obtain ⟨hnb, hb, hseg⟩ := quoteIdx_some hq
    have hscan : scan b = scan (b.take n ++ 34 :: b.drop (n + 1)) := by rw [← hb]
    rw [scan_seg _ _ hseg] at hscan
    have htb : n - backUp b (n - 1) = tb (b.take n) := by
      rw [backUp_eq b (n - 1) (by omega)]
      obtain ⟨m, rfl⟩ : ∃ m, n = m + 1 := ⟨n - 1, by omega⟩
      simp only [Nat.add_sub_cancel] at h9 ⊢
      have hm : m < b.length := by omega
      rw [List.getElem?_eq_getElem hm] at h9
      have h9' : b[m] = 92 := by simpa using h9
      have ht : b.take (m + 1) = b.take m ++ [92] := by rw [← h9']; simp
      rw [ht, tb_concat]
      have := tb_le (b.take m)
      simp at this
      omega
    rw [strLoop]
    rw [htb]
    split
    · rename_i hev
      rw [hscan, if_pos hev]
      rw [upTo_ok (by simp; omega), sliceFrom_ok (by omega)]
      have he : (pre ++ b).length - b.length + n = pre.length + n := by simp
      rw [he, List.take_length_add_append]
      rfl
    · rename_i hod
      rw [if_neg hod] at hscan
      rw [hscan, sliceFrom_ok (by omega), Res.bind_ok]
      have hpre : pre ++ b = (pre ++ b.take n ++ [34]) ++ b.drop (n + 1) := by
        conv => lhs; rw [hb]
        simp
      split
      · rename_i hq2
        rw [scan_noquote (quoteIdx_none hq2)]
        rfl
      · rename_i n2 hq2
        obtain ⟨hnb2, hb2, hseg2⟩ := quoteIdx_some hq2
        generalize hb' : b.drop (n + 1) = b' at *
        have hlen : b'.length < fuel := by rw [← hb']; simp; omega
        have hle : b'.length ≤ b.length := by rw [← hb']; simp
        by_cases hz : n2 = 0
        · rw [afterBackslash, if_pos hz, Res.bind_ok, if_neg (by simp)]
          have hs2 : scan b' = some (b'.take n2, b'.drop (n2 + 1)) := by
            conv => lhs; rw [hb2]
            rw [scan_seg _ _ hseg2, if_pos (by rw [tb_zero_of_last hnb2 (.inl hz)])]
          rw [hs2, upTo_ok (by simp; omega), sliceFrom_ok (by omega), hpre]
          have he : (pre ++ b.take n ++ [34] ++ b').length - b'.length + n2 =
            (pre ++ b.take n ++ [34]).length + n2 := by simp only [List.length_append]; omega
          rw [he, List.take_length_add_append]
          simp
        · rw [afterBackslash, if_neg hz, at_ok (by omega), Res.bind_ok, Res.bind_ok]
          split
          · rename_i h92
            rw [hpre, ih _ b' n2 hlen hq2 (by omega)
              (by rw [List.getElem?_eq_getElem (by omega)]; simpa using h92)]
            cases scan b' <;> simp
          · rename_i h92
            have hs2 : scan b' = some (b'.take n2, b'.drop (n2 + 1)) := by
              conv => lhs; rw [hb2]
              rw [scan_seg _ _ hseg2,
                if_pos (by rw [tb_zero_of_last hnb2 (.inr ⟨by omega, by simpa using h92⟩)])]
            rw [hs2, upTo_ok (by simp; omega), sliceFrom_ok (by omega), hpre]
            have he : (pre ++ b.take n ++ [34] ++ b').length - b'.length + n2 =
              (pre ++ b.take n ++ [34]).length + n2 := by simp only [List.length_append]; omega
            rw [he, List.take_length_add_append]
            simp

theorem parseString_eq (b : Bytes) : parseString b = strRes b := by
  unfold parseString strRes
  split
  · rename_i hq; rw [scan_noquote (quoteIdx_none hq)]
  · rename_i n hq
    obtain ⟨hnb, hb, hseg⟩ := quoteIdx_some hq
    have hscan : scan b = scan (b.take n ++ 34 :: b.drop (n + 1)) := by rw [← hb]
    rw [scan_seg _ _ hseg] at hscan
    by_cases hz : n = 0
    · rw [afterBackslash, if_pos hz, Res.bind_ok, if_neg (by simp), upTo_ok (by omega), sliceFrom_ok (by omega), hscan,
        if_pos (by rw [tb_zero_of_last hnb (.inl hz)])]
      rfl
    · rw [afterBackslash, if_neg hz, at_ok (by omega), Res.bind_ok, Res.bind_ok]
      split
      · rename_i h92
        have := strLoop_eq [] (b.length + 1) b n (by omega) hq (by omega)
          (by rw [List.getElem?_eq_getElem (by omega)]; simpa using h92)
        simpa using this
      · rename_i h92
        rw [upTo_ok (by omega), sliceFrom_ok (by omega), hscan,
          if_pos (by rw [tb_zero_of_last hnb (.inr ⟨by omega, by simpa using h92⟩)])]
        rfl

/-- A string body in terms of backslash runs. -/
theorem strBody_iff (s : Bytes) : StrBody s ↔
    tb s % 2 = 0 ∧ ∀ p q, s = p ++ 34 :: q → tb p % 2 = 1 := by
  constructor
  · intro h
    induction h with
    | nil => exact ⟨rfl, fun p q h => by simp at h⟩
    | char c r h1 h2 _ ih =>
      refine ⟨by rw [tb_cons_ne h2]; exact ih.1, ?_⟩
      intro p q h
      rcases p with _ | ⟨a, p⟩
      · simp at h; exact absurd h.1 h1
      · simp at h
        obtain ⟨rfl, h⟩ := h
        rw [tb_cons_ne h2]; exact ih.2 p q h
    | esc c r _ ih =>
      refine ⟨by rw [tb_pair]; exact ih.1, ?_⟩
      intro p q h
      rcases p with _ | ⟨a, _ | ⟨b, p⟩⟩
      · simp at h
      · simp at h
        obtain ⟨rfl, rfl, _⟩ := h
        decide
      · simp at h
        obtain ⟨rfl, rfl, h⟩ := h
        rw [tb_pair]; exact ih.2 p q h
  · intro h
    induction s using scan.induct with
    | case1 => exact .nil
    | case2 => exact absurd (h.2 [] [] rfl) (by decide)
    | case3 c hc =>
      refine .char c [] hc ?_ .nil
      rintro rfl
      exact absurd h.1 (by decide)
    | case4 d r => exact absurd (h.2 [] (d :: r) rfl) (by decide)
    | case5 d r hc ih =>
      refine .esc d r (ih ⟨by rw [← tb_pair d]; exact h.1, ?_⟩)
      intro p q e
      rw [← tb_pair d]
      exact h.2 (92 :: d :: p) q (by simp [e])
    | case6 c d r hc hc' ih =>
      refine .char c _ hc hc' (ih ⟨by rw [← tb_cons_ne hc']; exact h.1, ?_⟩)
      intro p q e
      rw [← tb_cons_ne hc']
      exact h.2 (c :: p) q (by simp [e])

/-! ## Keys -/

theorem parseKey_ok {k : Bytes} (h : 34 ∉ k) (t : Bytes) : parseKey (k ++ 34 :: t) = .ok (k, t) := by
  unfold parseKey
  rw [quoteIdx_seg h]
  dsimp only
  rw [upTo_ok (by simp), sliceFrom_ok (by simp)]
  simp

theorem parseKey_none {b : Bytes} (h : 34 ∉ b) : parseKey b = .err (.json .noKeyStart b.length []) := by
  unfold parseKey
  split
  · rename_i n hq
    obtain ⟨_, hb, _⟩ := quoteIdx_some hq
    exact absurd (by rw [hb]; simp) h
  · rfl

/-- Every input either has a first quote or none. -/
theorem split_quote (b : Bytes) : (∃ k t, 34 ∉ k ∧ b = k ++ 34 :: t) ∨ 34 ∉ b := by
  cases hq : quoteIdx b with
  | none => exact .inr (quoteIdx_none hq)
  | some n =>
    obtain ⟨_, hb, hs⟩ := quoteIdx_some hq
    exact .inl ⟨_, _, hs, hb⟩

end Dxs.Json
