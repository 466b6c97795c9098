import Verif.Yaml.Keep

/-!
# Where a YAML text is refused

The lines before the one that is refused are parsed as if the text ended there.
-/

namespace Dxs.Yaml

open Dxs.Heap

variable {E : Env} {pick : Heap → Option Nat} {k : Nat}

/-- The first line of a text, without its end. -/
def lineAt (data : Bytes) (i : Nat) : Bytes := (data.drop i).takeWhile (· != 10)

/-- The spaces a line starts with. -/
def depth (line : Bytes) : Nat := (line.takeWhile (· == 32)).length

theorem takeWhile_take {α : Type} (p : α → Bool) : ∀ (l : List α) (n : Nat), (l.takeWhile p).length < n → (l.take n).takeWhile p = l.takeWhile p
  | [], _, _ => by simp
  | a :: l, 0, h => by simp at h
  | a :: l, n + 1, h => by
    simp only [List.take_succ_cons, List.takeWhile_cons] at h ⊢
    split
    · rename_i hp
      simp only [hp, if_true, List.length_cons] at h
      rw [takeWhile_take p l n (by omega)]
    · rfl

theorem takeWhile_le {α : Type} (p : α → Bool) (l : List α) : (l.takeWhile p).length ≤ l.length := by
  have h := congrArg List.length (List.takeWhile_append_dropWhile (p := p) (l := l))
  rw [List.length_append] at h; omega

/-- Behind the end of the text the loop does not come back. -/
theorem parseLoop_past (data : Bytes) : ∀ (f i : Nat) (s : St), data.length < i → parseLoop E pick k data f i s = .loop
  | 0, _, _, _ => rfl
  | f + 1, i, s, h => by
    have e : data.drop i = [] := List.drop_eq_nil_of_le (by omega)
    simp only [parseLoop, e, List.takeWhile_nil, List.length_nil, Nat.lt_irrefl, if_false]
    rw [if_pos (by omega), if_neg (by omega)]
    exact parseLoop_past data f _ s (by omega)

/-- Where a line ends. -/
theorem stop_eq {data : Bytes} {i : Nat} (hi : i ≤ data.length) :
    (if ((data.drop i).takeWhile (· != 10)).length < (data.drop i).length then i + ((data.drop i).takeWhile (· != 10)).length else data.length) = i + (lineAt data i).length := by
  have hle := takeWhile_le (· != 10) (data.drop i)
  unfold lineAt
  split
  · rfl
  · simp only [List.length_drop] at *; omega

theorem parseLoop_eq {data : Bytes} {f i : Nat} {s : St} (hi : i ≤ data.length) :
    parseLoop E pick k data (f + 1) i s =
      if (lineAt data i).length < 2 then
        if i + (lineAt data i).length + 1 = data.length then .ok s else parseLoop E pick k data f (i + (lineAt data i).length + 1) s
      else (parseLine E pick k (lineAt data i) (depth (lineAt data i)) s).bind fun s =>
        if data.length ≤ i + (lineAt data i).length + 1 then .ok s else parseLoop E pick k data f (i + (lineAt data i).length + 1) s := by
  simp only [parseLoop, stop_eq hi]
  by_cases h : (lineAt data i).length < 2
  · rw [if_pos h, if_pos (by omega)]
  · rw [if_neg h, if_neg (by omega)]; rfl

theorem parseLoopErr_eq {data : Bytes} {f i : Nat} {s : St} (hi : i ≤ data.length) :
    parseLoopErr E pick k data (f + 1) i s =
      if (lineAt data i).length < 2 then
        if i + (lineAt data i).length + 1 = data.length then s.h else parseLoopErr E pick k data f (i + (lineAt data i).length + 1) s
      else match parseLine E pick k (lineAt data i) (depth (lineAt data i)) s with
        | .ok s => if data.length ≤ i + (lineAt data i).length + 1 then s.h else parseLoopErr E pick k data f (i + (lineAt data i).length + 1) s
        | _ => parseLineErr pick (lineAt data i) (depth (lineAt data i)) s := by
  simp only [parseLoopErr, stop_eq hi]
  by_cases h : (lineAt data i).length < 2
  · rw [if_pos h, if_pos (by omega)]
  · rw [if_neg h, if_neg (by omega)]; rfl

theorem lineAt_take {data : Bytes} {i j : Nat} (h : i + (lineAt data i).length + 1 ≤ j) : lineAt (data.take j) i = lineAt data i := by
  unfold lineAt at *
  rw [List.drop_take]
  exact takeWhile_take _ _ _ (by omega)

/-- A line that is not the last one is followed by a line feed. -/
theorem lineAt_end {data : Bytes} {i : Nat} (h : i + (lineAt data i).length + 1 < data.length) : data[i + (lineAt data i).length]? = some 10 := by
  rw [← List.getElem?_drop]
  have hd := List.takeWhile_append_dropWhile (p := fun x : UInt8 => x != 10) (l := data.drop i)
  unfold lineAt at *
  generalize hx : (data.drop i).takeWhile (fun x => x != 10) = x at *
  have hn := List.head?_dropWhile_not (fun x : UInt8 => x != 10) (data.drop i)
  cases hc : (data.drop i).dropWhile (· != 10) with
  | nil =>
    rw [hc, List.append_nil] at hd
    have := congrArg List.length hd
    simp only [List.length_drop] at this
    omega
  | cons a r =>
    rw [hc] at hd hn
    rw [← hd, List.getElem?_append_right (Nat.le_refl _)]
    simpa using hn

/-- What is said of a refused text. -/
def Refused (E : Env) (pick : Heap → Option Nat) (k : Nat) (data : Bytes) (e : Err) (f i : Nat) (s : St) : Prop :=
  ∃ j s1, i ≤ j ∧ 2 ≤ (lineAt data j).length ∧ parseLine E pick k (lineAt data j) (depth (lineAt data j)) s1 = .err e ∧
    parseLoopErr E pick k data f i s = parseLineErr pick (lineAt data j) (depth (lineAt data j)) s1 ∧
    (j = i ∧ s1 = s ∨ i < j ∧ data[j - 1]? = some 10 ∧ parseLoop E pick k (data.take j) f i s = .ok s1)

/-- A text is refused in one of its lines: the lines before are parsed, the memory is that of this line. -/
theorem parseLoop_refused (data : Bytes) {e : Err} : ∀ (f i : Nat) (s : St), parseLoop E pick k data f i s = .err e → Refused E pick k data e f i s := by
  intro f
  induction f with
  | zero => intro i s h; cases h
  | succ f ih =>
    intro i s h
    by_cases hi : data.length < i
    · rw [parseLoop_past data _ _ _ hi] at h; cases h
    have hi : i ≤ data.length := by omega
    have goOn : ∀ s2, parseLoop E pick k data f (i + (lineAt data i).length + 1) s2 = .err e → i + (lineAt data i).length + 1 < data.length →
        (lineAt data i).length < 2 ∧ s2 = s ∨ ¬(lineAt data i).length < 2 ∧ parseLine E pick k (lineAt data i) (depth (lineAt data i)) s = .ok s2 →
        Refused E pick k data e (f + 1) i s := by
      intro s2 h hend hb
      obtain ⟨j, s1, hj, h2, he, hm, hp⟩ := ih _ _ h
      have hjl : j ≤ data.length := by
        rcases Nat.lt_or_ge data.length j with hc | hc
        · exfalso
          have : lineAt data j = [] := by unfold lineAt; rw [List.drop_eq_nil_of_le (by omega)]; rfl
          rw [this] at h2; simp at h2
        · exact hc
      have hla : lineAt (data.take j) i = lineAt data i := lineAt_take hj
      have hlen : (data.take j).length = j := by simp; omega
      refine ⟨j, s1, by omega, h2, he, ?_, Or.inr ⟨by omega, ?_, ?_⟩⟩
      · rw [parseLoopErr_eq hi, ← hm]
        rcases hb with ⟨hb, rfl⟩ | ⟨hb, hl⟩
        · rw [if_pos hb, if_neg (by omega)]
        · rw [if_neg hb, hl]; dsimp only; rw [if_neg (by omega)]
      · rcases hp with ⟨rfl, rfl⟩ | ⟨-, hp, -⟩
        · exact lineAt_end hend
        · exact hp
      · have hcont : (if j = i + (lineAt data i).length + 1 then Res.ok s2 else parseLoop E pick k (data.take j) f (i + (lineAt data i).length + 1) s2) = .ok s1 := by
          rcases hp with ⟨rfl, rfl⟩ | ⟨hlt, -, hp⟩
          · rw [if_pos rfl]
          · rw [if_neg (by omega)]; exact hp
        rw [parseLoop_eq (by rw [hlen]; omega), hla, hlen]
        rcases hb with ⟨hb, rfl⟩ | ⟨hb, hl⟩
        · rw [if_pos hb]
          rw [← hcont]
          by_cases hc : j = i + (lineAt data i).length + 1
          · rw [if_pos hc, if_pos hc.symm]
          · rw [if_neg hc, if_neg (Ne.symm hc)]
        · rw [if_neg hb, hl]
          show (if j ≤ _ then _ else _) = _
          rw [← hcont]
          by_cases hc : j = i + (lineAt data i).length + 1
          · rw [if_pos hc, if_pos (by omega)]
          · rw [if_neg hc, if_neg (by omega)]
    rw [parseLoop_eq hi] at h
    by_cases hb : (lineAt data i).length < 2
    · rw [if_pos hb] at h
      split at h
      · cases h
      · rename_i hne
        by_cases hend : i + (lineAt data i).length + 1 < data.length
        · exact goOn s h hend (Or.inl ⟨hb, rfl⟩)
        · rw [parseLoop_past data _ _ _ (by omega)] at h; cases h
    · rw [if_neg hb] at h
      cases hp : parseLine E pick k (lineAt data i) (depth (lineAt data i)) s with
      | ok s2 =>
        rw [hp] at h
        change (if _ then _ else _) = _ at h
        split at h
        · cases h
        · rename_i hne
          exact goOn s2 h (by omega) (Or.inr ⟨hb, hp⟩)
      | err x =>
        rw [hp] at h
        cases h
        exact ⟨i, s, Nat.le_refl _, by omega, hp, by rw [parseLoopErr_eq hi, if_neg hb, hp], Or.inl ⟨rfl, rfl⟩⟩
      | panic => rw [hp] at h; cases h
      | loop => rw [hp] at h; cases h

/-- A text is refused in one of its lines. -/
theorem parse_refused {data : Bytes} {f : Nat} {s : St} {e : Err} (h : parse E pick f data s = .err e) :
    ∃ pre line post s1, data = pre ++ line ++ post ∧ 10 ∉ line ∧ (post = [] ∨ post.head? = some 10) ∧
      (pre = [] ∧ s1 = { s with p := { s.p with last := -1 } } ∨ pre.getLast? = some 10 ∧ parse E pick f pre s = .ok s1) ∧
      parseLine E pick f line (depth line) s1 = .err e ∧ parseErr E pick f data s = parseLineErr pick line (depth line) s1 := by
  unfold parse at h
  split at h
  · cases h
  rename_i hd
  obtain ⟨j, s1, -, h2, he, hm, hp⟩ := parseLoop_refused data f 0 _ h
  have hjl : j < data.length := by
    rcases Nat.lt_or_ge j data.length with hc | hc
    · exact hc
    · exfalso
      have : lineAt data j = [] := by unfold lineAt; rw [List.drop_eq_nil_of_le hc]; rfl
      rw [this] at h2; simp at h2
  refine ⟨data.take j, lineAt data j, (data.drop j).dropWhile (· != 10), s1, ?_, ?_, ?_, ?_, he, ?_⟩
  · unfold lineAt
    rw [List.append_assoc, List.takeWhile_append_dropWhile, List.take_append_drop]
  · intro hin
    have := List.all_takeWhile (p := fun x : UInt8 => x != 10) (l := data.drop j)
    rw [List.all_eq_true] at this
    have := this 10 hin
    simp at this
  · have hn := List.head?_dropWhile_not (fun x : UInt8 => x != 10) (data.drop j)
    cases hc : (data.drop j).dropWhile (· != 10) with
    | nil => exact Or.inl rfl
    | cons a r => rw [hc] at hn; right; simpa using hn
  · rcases hp with ⟨rfl, rfl⟩ | ⟨hlt, h10, hp⟩
    · exact Or.inl ⟨by simp, rfl⟩
    · refine Or.inr ⟨?_, ?_⟩
      · rw [List.getLast?_eq_getElem?]
        simp only [List.length_take]
        rw [Nat.min_eq_left (by omega), List.getElem?_take, if_pos (by omega)]
        exact h10
      · unfold parse
        rw [if_neg (by intro h0; have := congrArg List.length h0; simp only [List.length_take, List.length_nil] at this; omega)]
        exact hp
  · unfold parseErr
    rw [if_neg hd]
    exact hm

/-! ## What never gives an error -/

/-- It may panic or not return, but gives no error. -/
def Quiet {α : Type} (r : Res α) : Prop := ∀ e, r ≠ .err e

theorem Quiet.ok {α : Type} (a : α) : Quiet (.ok a) := fun _ h => by cases h
theorem Quiet.panic {α : Type} : Quiet (.panic : Res α) := fun _ h => by cases h
theorem Quiet.loop {α : Type} : Quiet (.loop : Res α) := fun _ h => by cases h

theorem Quiet.bind {α β : Type} {x : Res α} {f : α → Res β} (hx : Quiet x) (hf : ∀ a, Quiet (f a)) : Quiet (x >>= f) := by
  cases x with
  | ok a => exact hf a
  | err e => exact absurd rfl (hx e)
  | panic => exact Quiet.panic
  | loop => exact Quiet.loop

theorem cloneM_quiet {rec : Heap → Option Ptr → Res (Ptr × Heap)} (hr : ∀ h q, Quiet (rec h q)) (r : Ptr) : ∀ kvs h, Quiet (cloneM rec r h kvs)
  | [], _ => Quiet.ok _
  | _ :: kvs, _ => Quiet.bind (hr _ _) (fun _ => cloneM_quiet hr r kvs _)

theorem cloneL_quiet {rec : Heap → Option Ptr → Res (Ptr × Heap)} (hr : ∀ h q, Quiet (rec h q)) (r : Ptr) : ∀ xs h, Quiet (cloneL rec r h xs)
  | [], _ => Quiet.ok _
  | _ :: xs, _ => Quiet.bind (hr _ _) (fun _ => cloneL_quiet hr r xs _)

theorem clone_quiet : ∀ (f : Nat) (h : Heap) (q : Option Ptr) (c : Option CId), Quiet (clone f h q c)
  | 0, _, _, _ => Quiet.loop
  | _ + 1, _, none, _ => Quiet.panic
  | f + 1, h, some p, c => by
    rw [clone]
    split
    · exact Quiet.ok _
    · dsimp only
      split <;> first
        | exact Quiet.ok _
        | exact Quiet.bind (cloneM_quiet (fun h q => clone_quiet f h q c) _ _ _) (fun _ => Quiet.ok _)
        | exact Quiet.bind (cloneL_quiet (fun h q => clone_quiet f h q c) _ _ _) (fun _ => Quiet.ok _)

theorem addM_quiet {rec : Heap → Option Ptr → Res (Ptr × Heap)} (hr : ∀ h q, Quiet (rec h q)) (p s : Ptr) : ∀ n i h, Quiet (addM rec p s n i h)
  | 0, _, _ => Quiet.loop
  | n + 1, i, h => by
    rw [addM]
    split
    · exact Quiet.ok _
    · exact Quiet.bind (hr _ _) (fun _ => addM_quiet hr p s n _ _)

theorem addL_quiet {rec : Heap → Option Ptr → Res (Ptr × Heap)} (hr : ∀ h q, Quiet (rec h q)) (p s : Ptr) : ∀ n i h, Quiet (addL rec p s n i h)
  | 0, _, _ => Quiet.loop
  | n + 1, i, h => by
    rw [addL]
    split
    · exact Quiet.ok _
    · exact Quiet.bind (hr _ _) (fun _ => addL_quiet hr p s n _ _)

theorem copyFrom_quiet (f : Nat) (h : Heap) (p : Ptr) (u : Option Ptr) (c : Option CId) : Quiet (copyFrom f h p u c) := by
  unfold copyFrom
  cases u with
  | none => exact Quiet.panic
  | some s =>
    dsimp only
    split
    · exact addM_quiet (fun h q => clone_quiet f h q _) _ _ _ _ _
    · exact addL_quiet (fun h q => clone_quiet f h q _) _ _ _ _ _
    · exact Quiet.ok _
    · exact Quiet.ok _
    · split <;> exact Quiet.ok _

theorem addFrom_quiet (f : Nat) (h : Heap) (p : Ptr) (u : Option Ptr) (c : Option CId) : Quiet (addFrom f h p u c) := by
  unfold addFrom
  cases u with
  | none => exact Quiet.panic
  | some s =>
    dsimp only
    split
    · exact addM_quiet (fun h q => clone_quiet f h q _) _ _ _ _ _
    · exact addL_quiet (fun h q => clone_quiet f h q _) _ _ _ _ _
    · exact Quiet.ok _

theorem setKeyCached_quiet (h : Heap) (p : Ptr) (name : Bytes) (t : VT) (c : Option CId) : Quiet (setKeyCached E h p name t c) := by
  unfold setKeyCached
  split
  · exact Quiet.ok _
  · dsimp only
    split
    · split
      · exact Quiet.panic
      · repeat' split
        all_goals exact Quiet.ok _
    · exact Quiet.ok _

theorem putKey_quiet (s : St) (cur : Ptr) (key : Bytes) (t : VT) : Quiet (putKey E s cur key t) :=
  Quiet.bind (setKeyCached_quiet _ _ _ _ _) (fun _ => Quiet.ok _)

theorem upTo_quiet (n : Nat) (b : Bytes) : Quiet (Json.upTo n b) := by
  unfold Json.upTo
  split <;> first | exact Quiet.ok _ | exact Quiet.panic

theorem getString_quiet (n : Node) : Quiet (getString E .panic n).1 := by
  unfold getString
  split <;> first | exact Quiet.ok _ | exact Quiet.panic | skip
  unfold Json.binText
  repeat' split
  all_goals exact Quiet.bind (upTo_quiet _ _) (fun _ => Quiet.ok _)

theorem strVal_quiet {amp : Res St} (ha : Quiet amp) (s : St) (t : Ptr) (v : Bytes) : Quiet (strVal E k amp s t v) := by
  unfold strVal
  repeat' split
  all_goals first | exact Quiet.ok _ | exact Quiet.panic | exact ha | exact Quiet.bind (copyFrom_quiet _ _ _ _ _) (fun _ => Quiet.ok _)

theorem strVal1_quiet (s : St) (t : Ptr) (v : Bytes) : Quiet (strVal1 E k s t v) := by
  unfold strVal1
  refine strVal_quiet ?_ s t v
  split
  · exact Quiet.ok _
  · dsimp only
    split
    · exact Quiet.ok _
    · exact strVal_quiet (Quiet.ok _) _ _ _

theorem objMember_quiet (key v : Bytes) (cur : Ptr) (s : St) : Quiet (objMember E k key v cur s) := by
  unfold objMember
  split
  · exact putKey_quiet _ _ _ _
  · split
    · dsimp only
      repeat' split
      all_goals first
        | exact Quiet.bind (putKey_quiet _ _ _ _) (fun _ => Quiet.ok _)
        | exact Quiet.bind (putKey_quiet _ _ _ _) (fun _ => Quiet.bind (strVal1_quiet _ _ _) (fun _ => Quiet.bind (Quiet.ok _) (fun _ => Quiet.ok _)))
    · split
      · split
        · exact Quiet.bind (clone_quiet _ _ _ _) (fun _ => Quiet.ok _)
        · exact Quiet.bind (putKey_quiet _ _ _ _) (fun _ => Quiet.ok _)
      · exact Quiet.bind (putKey_quiet _ _ _ _) (fun _ => Quiet.bind (strVal1_quiet _ _ _) (fun _ => Quiet.ok _))

/-- `mergeObject` gives an error only for `<<:` without a name. -/
theorem mergeRef_err {s : St} {cur : Ptr} {line key v : Bytes} {e : Err} (h : mergeRef k s cur line key v = .err e) : key = [60, 60] ∧ v = [] := by
  unfold mergeRef at h
  split at h
  · rename_i hk
    refine ⟨hk, ?_⟩
    split at h
    · rename_i hv; simpa using hv
    · exfalso
      revert h
      repeat' split
      all_goals first | exact Quiet.ok _ e | exact Quiet.bind (addFrom_quiet _ _ _ _ _) (fun _ => Quiet.ok _) e
  · cases h

/-! ## The line -/

/-- The values that are still open when a line comes, the innermost first, yamlparse.go:193-219. -/
def opened (s : St) (sp : Nat) : List YNode :=
  let last := if s.p.first = true ∧ (s.p.stack.head?.map (·.isMap)) = some true then s.p.last + 2 else s.p.last
  if last > sp then closeTo sp (s.p.stack.drop 2) else if last = sp then s.p.stack.drop 1 else s.p.stack

/-- The text after the `-` of a line. -/
def afterDash (line : Bytes) (sp : Nat) : Bytes := (cutComment (line.drop sp)).drop 1

/-- Whether a refused line with `-` has already added an element. -/
def dashed (line : Bytes) (sp : Nat) (s : St) : Prop := (afterDash line sp).head? = some 32 ∨ (sp : Int) > s.p.last

/-- Whether a refused line is `<<:` without a name below a value that is no object. -/
def badMerge (line : Bytes) (sp : Nat) (s : St) (n : YNode) : Prop :=
  (sp : Int) > (if s.p.first = true ∧ n.isMap = true then s.p.last + 2 else s.p.last) ∧ (s.h.mem n.v).dt ≠ .object ∧
    (splitKv (cutComment (line.drop sp))).1 = [60, 60] ∧ (splitKv (cutComment (line.drop sp))).2.1 = []

theorem parseArray_refused {line : Bytes} {sp : Int} {s : St} {e : Err} (h : parseArray E pick k line sp s = .err e) {n : YNode} {r : List YNode} (hs : s.p.stack = n :: r) :
    (¬(line.head? = some 32 ∨ sp > s.p.last) ∧ parseArrayErr pick line sp s = s.h) ∨
    ((line.head? = some 32 ∨ sp > s.p.last) ∧ ∃ h0, (h0 = s.h ∧ (s.h.mem n.v).dt ≠ .object ∨ (s.h.mem n.v).dt = .object ∧ h0 = reset s.h n.v .array) ∧ (h0.mem n.v).dt = .array ∧
      parseArrayErr pick line sp s = (setIndexCached h0 n.v (-1) .string s.p.cache).2) := by
  unfold parseArray at h
  unfold parseArrayErr
  by_cases hcond : line ≠ [] ∧ line.head? ≠ some 32 ∧ sp ≤ s.p.last
  · left
    rw [if_pos hcond]
    exact ⟨fun hc => hc.elim hcond.2.1 (fun hc => by have := hcond.2.2; omega), rfl⟩
  right
  rw [if_neg hcond] at h ⊢
  simp only [arrStart, hs, reduceCtorEq, if_false, List.head?_cons] at h ⊢
  constructor
  · by_cases hl : line = []
    · exfalso
      subst hl
      revert h
      have : trim ([] : Bytes) = [] := rfl
      simp only [this, ne_eq, not_true_eq_false, if_false, if_true]
      repeat' split
      all_goals exact Quiet.ok _ e
    · by_cases h32 : line.head? = some 32
      · exact Or.inl h32
      · right
        apply Int.not_le.1
        exact fun hc => hcond ⟨hl, h32, hc⟩
  · by_cases hd : (s.h.mem n.v).dt = .object
    · rw [if_pos hd] at h ⊢
      split at h
      · rename_i ha; exact ⟨_, Or.inr ⟨hd, rfl⟩, ha, rfl⟩
      · exfalso
        revert h
        split
        · exact Quiet.ok _ e
        · exact Quiet.bind (getString_quiet _) (fun _ => Quiet.ok _) e
    · rw [if_neg hd] at h ⊢
      split at h
      · rename_i ha; exact ⟨_, Or.inl ⟨rfl, hd⟩, ha, rfl⟩
      · exfalso
        revert h
        split
        · exact Quiet.ok _ e
        · exact Quiet.bind (getString_quiet _) (fun _ => Quiet.ok _) e

/-- What a refused line has done to the memory when there are open values, `n` the innermost one: a line with `-` has added an empty string to `n` (and made it an array before, if
it was an object), or it has done nothing; a line `<<:` below a value that is no object has made it an empty object; every other line has done nothing. -/
theorem parseLine_refused {line : Bytes} {sp : Nat} {s : St} {e : Err} (h : parseLine E pick k line sp s = .err e) {n : YNode} {r : List YNode} (hs : opened s sp = n :: r) :
    ((line.drop sp).head? = some 45 ∧ ¬dashed line sp s ∧ parseLineErr pick line sp s = s.h) ∨
    ((line.drop sp).head? = some 45 ∧ dashed line sp s ∧ ∃ h0, (h0 = s.h ∧ (s.h.mem n.v).dt ≠ .object ∨ (s.h.mem n.v).dt = .object ∧ h0 = reset s.h n.v .array) ∧ (h0.mem n.v).dt = .array ∧
      parseLineErr pick line sp s = (setIndexCached h0 n.v (-1) .string s.p.cache).2) ∨
    ((line.drop sp).head? ≠ some 45 ∧ badMerge line sp s n ∧ parseLineErr pick line sp s = reset s.h n.v .object) ∨
    ((line.drop sp).head? ≠ some 45 ∧ ¬badMerge line sp s n ∧ parseLineErr pick line sp s = s.h) := by
  unfold parseLine at h
  unfold parseLineErr
  dsimp only at h ⊢
  cases hc : (line.drop sp).head? with
  | none => rw [hc] at h; cases h
  | some c =>
    rw [hc] at h
    dsimp only at h ⊢
    unfold opened at hs
    dsimp only at hs
    rw [hs] at h ⊢
    split at h
    · cases h
    rename_i h35
    split
    · -- an element of an array
      rename_i h45
      rw [if_pos h45] at h
      rcases Res.bind_eq_err.1 h with h | ⟨_, -, h⟩
      · rcases parseArray_refused h rfl with ⟨h1, h2⟩ | ⟨h1, h2⟩
        · exact Or.inl ⟨by rw [h45], h1, h2⟩
        · exact Or.inr (Or.inl ⟨by rw [h45], h1, h2⟩)
      · cases h
    · rename_i h45
      right; right
      rw [if_neg h45] at h
      have h45' : some c ≠ some (45 : UInt8) := by simpa using h45
      unfold parseObjectErr badMerge
      simp only [objStart, reduceCtorEq, if_false, List.head?_cons, false_and, not_false_eq_true, true_and]
      rcases Res.bind_eq_err.1 h with h | ⟨_, -, h⟩
      · unfold parseObject at h
        simp only [reduceCtorEq, if_false, List.head?_cons, false_and, not_false_eq_true, true_and] at h
        generalize (if s.p.first = true ∧ n.isMap = true then s.p.last + 2 else s.p.last : Int) = last at h ⊢
        by_cases h1 : last = sp
        · right; rw [if_pos h1]; exact ⟨h45', fun hc => by omega, rfl⟩
        rw [if_neg h1] at h ⊢
        by_cases h2 : (sp : Int) > last
        · rw [if_pos h2] at h ⊢
          unfold objChild at h
          by_cases hk : (splitKv (cutComment (line.drop sp))).1 = []
          · right; rw [if_pos hk]; exact ⟨h45', fun hc => by rw [hk] at hc; simp at hc, rfl⟩
          rw [if_neg hk] at h ⊢
          by_cases hd : (s.h.mem n.v).dt = .object
          · right; rw [if_pos hd]; exact ⟨h45', fun hc => hc.2.1 hd, rfl⟩
          rw [if_neg hd] at h ⊢
          left
          rcases Res.bind_eq_err.1 h with h | ⟨_, -, h⟩
          · have := mergeRef_err h
            exact ⟨h45', ⟨h2, hd, this.1, this.2⟩, rfl⟩
          · exfalso
            revert h
            dsimp only
            split
            · exact Quiet.ok _ e
            · exact Quiet.bind (objMember_quiet _ _ _ _) (fun _ => Quiet.ok _) e
        · right; rw [if_neg h2]; exact ⟨h45', fun hc => h2 hc.1, rfl⟩
      · cases h

end Dxs.Yaml
