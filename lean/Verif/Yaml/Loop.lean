import Verif.Yaml.Safe

/-!
# The loop over the lines
-/

namespace Dxs.Yaml

open Dxs.Heap

/-- The lines of a text: what is between newlines. A text that ends in a newline has an empty last line. -/
def linesOf : Bytes → List Bytes
  | [] => [[]]
  | c :: r =>
    if c = 10 then [] :: linesOf r
    else
      match linesOf r with
      | [] => [[c]]
      | l :: ls => (c :: l) :: ls

theorem linesOf_ne (d : Bytes) : linesOf d ≠ [] := by
  cases d with
  | nil => simp [linesOf]
  | cons c r =>
    unfold linesOf
    split
    · simp
    · split <;> simp

theorem linesOf_more {d : Bytes} (h : (d.takeWhile (· != 10)).length < d.length) :
    linesOf d = d.takeWhile (· != 10) :: linesOf (d.drop ((d.takeWhile (· != 10)).length + 1)) := by
  induction d with
  | nil => simp at h
  | cons c r ih =>
    rw [linesOf]
    by_cases hc : c = 10
    · simp [hc]
    · have hc' : (c != 10) = true := by simpa using hc
      simp only [List.takeWhile_cons, hc', if_true, List.length_cons] at h ⊢
      rw [if_neg hc, ih (by omega)]
      rfl

theorem linesOf_last {d : Bytes} (h : ¬(d.takeWhile (· != 10)).length < d.length) : linesOf d = [d] ∧ d.takeWhile (· != 10) = d := by
  induction d with
  | nil => simp [linesOf]
  | cons c r ih =>
    unfold linesOf
    by_cases hc : c = 10
    · simp [hc] at h
    · have hc' : (c != 10) = true := by simpa using hc
      simp only [List.takeWhile_cons, hc', if_true, List.length_cons] at h ⊢
      obtain ⟨h1, h2⟩ := ih (by omega)
      rw [if_neg hc, h1, h2]
      exact ⟨rfl, rfl⟩

theorem Ends.add {α : Type} {b o : Prop} {F : Nat → Res α} {P : α → Prop} (h : Ends b o F P) (j : Nat) : Ends b o (fun f => F (f + j)) P := by
  refine ⟨fun f x hx => h.1 _ x hx, fun ho f => h.2.1 ho _, fun hb => ?_⟩
  obtain ⟨r, hl, N, hN⟩ := h.2.2 hb
  exact ⟨r, hl, N, fun f hf => hN _ (by omega)⟩

section
variable {X : List Ptr} {h0 : Heap} {S : Ptr → Prop} {s : St} {b o : Prop}

theorem closeTo_sub {sp : Int} : ∀ {l : List YNode} {n : YNode}, n ∈ closeTo sp l → n ∈ l
  | [], _, h => h
  | [_], _, h => h
  | a :: m :: r, n, h => by
    unfold closeTo at h
    split at h
    · exact h
    · exact List.mem_cons_of_mem _ (closeTo_sub h)

theorem cutComment_infix (l : Bytes) : cutComment l <:+: l := by
  unfold cutComment
  split
  · split
    · exact (List.take_prefix _ _).isInfix
    · exact List.infix_rfl
  · exact List.infix_rfl

theorem parseLine_ends (E : Env) (pick : Heap → Option Nat) (line : Bytes) (sp : Nat) (a : Fine X h0 S s) (hl : line.drop sp ≠ [])
    (hm : b → (splitKv (cutComment (line.drop sp))).1 ≠ [60, 60]) (hs : o → 42 ∉ line) :
    Ends b o (fun k => parseLine E pick k line sp s) (Next X h0 S) := by
  unfold parseLine
  dsimp only
  rcases hd : (line.drop sp).head? with _ | c
  · exact absurd (List.head?_eq_none_iff.mp hd) hl
  dsimp only
  split
  · exact Ends.ok ⟨S, fun _ => id, a⟩
  generalize (if s.p.first = true ∧ s.p.stack.head?.map (·.isMap) = some true then s.p.last + 2 else s.p.last) = last
  generalize hst : (if last > (sp : Int) then closeTo sp (s.p.stack.drop 2) else if last = (sp : Int) then s.p.stack.drop 1 else s.p.stack) = stack
  have hsub : ∀ n ∈ stack, n ∈ s.p.stack := by
    intro n hn
    rw [← hst] at hn
    split at hn
    · exact List.mem_of_mem_drop (closeTo_sub hn)
    split at hn
    · exact List.mem_of_mem_drop hn
    · exact hn
  have a1 : Fine X h0 S { s with p := { s.p with stack := stack } } := ⟨a.young, fun n hn => a.stack n (hsub n hn), a.uses, a.cache, a.root⟩
  have hs1 : 42 ∈ cutComment (line.drop sp) → 42 ∈ line := fun h => List.mem_of_mem_drop ((cutComment_infix _).sublist.mem h)
  have fin : ∀ s', Next X h0 S s' → Ends b o (fun _ => Res.ok { s' with p := { s'.p with last := (sp : Int) } }) (Next X h0 S) := by
    rintro s' ⟨S', h', a'⟩
    exact Ends.ok ⟨S', h', a'.young, a'.stack, a'.uses, a'.cache, a'.root⟩
  split
  · exact Ends.bind (parseArray_ends E pick _ _ a1 (fun h hm => hs h (hs1 (List.mem_of_mem_drop hm)))) fin
  · exact Ends.bind (parseObject_ends E pick _ _ a1 hm (fun h hm => hs h (hs1 hm))) fin

/-- Behind the end the loop never stops. -/
theorem parseLoop_behind (E : Env) (pick : Heap → Option Nat) (k : Nat) (data : Bytes) : ∀ (f : Nat) (s : St), parseLoop E pick k data f (data.length + 1) s = .loop
  | 0, _ => rfl
  | f + 1, s => by
    unfold parseLoop
    have : data.drop (data.length + 1) = [] := by simp
    simp only [this, List.takeWhile_nil, List.length_nil, Nat.lt_irrefl, if_false]
    rw [if_pos (by omega), if_neg (by omega)]
    exact parseLoop_behind E pick k data f s

theorem trim_infix (l : Bytes) : trim l <:+: l := by
  unfold trim
  have h1 : l.dropWhile isSp <:+: l := (List.dropWhile_suffix _).isInfix
  have h2 : (l.dropWhile isSp).reverse.dropWhile isSp <:+: (l.dropWhile isSp).reverse := (List.dropWhile_suffix _).isInfix
  have h3 := List.reverse_infix.mpr h2
  rw [List.reverse_reverse] at h3
  exact h3.trans h1

theorem splitKv_infix (l : Bytes) : (splitKv l).1 <:+: l := by
  unfold splitKv
  dsimp only
  have h : ∀ i, trim ((trim l).take i) <:+: l := fun i => ((trim_infix _).trans (List.take_prefix i _).isInfix).trans (trim_infix l)
  split
  · exact trim_infix l
  · rename_i i _
    split
    · split
      · exact h i
      · exact trim_infix l
    · exact h i

theorem noblank {l : Bytes} (h : ∃ c ∈ l, c ≠ 32) : l.drop (l.takeWhile (· == 32)).length ≠ [] := by
  induction l with
  | nil => simp at h
  | cons c r ih =>
    by_cases hc : c = 32
    · subst hc
      simp only [beq_self_eq_true, List.takeWhile_cons, if_true, List.length_cons, List.drop_succ_cons]
      apply ih
      simpa using h
    · simp [List.takeWhile_cons, hc]

theorem parseLoop_ends (E : Env) (pick : Heap → Option Nat) (data : Bytes) : ∀ (m i j : Nat) {S : Ptr → Prop} {s : St}, data.length - i ≤ m → i < data.length → Fine X h0 S s →
    (∀ l ∈ linesOf (data.drop i), 2 ≤ l.length → ∃ c ∈ l, c ≠ 32) → (b → ∀ l, (linesOf (data.drop i)).getLast? = some l → l.length ≠ 1) → (b → ¬[60, 60] <:+: data) → (o → 42 ∉ data) →
    Ends b o (fun f => parseLoop E pick (f + j) data f i s) (Next X h0 S) := by
  intro m
  induction m with
  | zero => intro i j S s h1 h2; omega
  | succ m ih =>
    intro i j S s hm hi a hbl hla hno hst
    have hst' : o → 42 ∉ (data.drop i).takeWhile (· != 10) := fun h hm => hst h (List.mem_of_mem_drop ((List.takeWhile_prefix _).mem hm))
    refine Ends.shift rfl (fun f => parseLoop.eq_2 ..) ?_
    have hlen : (data.drop i).length = data.length - i := List.length_drop
    have hno' : ∀ n, b → (splitKv (cutComment (((data.drop i).takeWhile (· != 10)).drop n))).1 ≠ [60, 60] := by
      intro n hb he
      apply hno hb
      have := (splitKv_infix (cutComment (((data.drop i).takeWhile (· != 10)).drop n))).trans (cutComment_infix _)
      rw [he] at this
      exact ((this.trans (List.drop_suffix _ _).isInfix).trans (List.takeWhile_prefix _).isInfix).trans (List.drop_suffix _ _).isInfix
    by_cases hmore : ((data.drop i).takeWhile (· != 10)).length < (data.drop i).length
    · have hl := linesOf_more hmore
      rw [if_pos hmore]
      generalize hln : (data.drop i).takeWhile (· != 10) = line at *
      have hdrop : (data.drop i).drop (line.length + 1) = data.drop (i + line.length + 1) := by rw [List.drop_drop]; congr 1
      rw [hdrop] at hl
      have rest : i + line.length + 1 < data.length → ∀ j' {S'} {s'}, Fine X h0 S' s' →
          Ends b o (fun f => parseLoop E pick (f + j') data f (i + line.length + 1) s') (Next X h0 S') := by
        intro hlt j' S' s' a'
        refine ih (i + line.length + 1) j' (by omega) hlt a' (fun l hl' => hbl l (by rw [hl]; exact List.mem_cons_of_mem _ hl')) ?_ hno hst
        intro hb l hl'
        refine hla hb l ?_
        rw [hl, List.getLast?_cons]
        simp [hl']
      split
      · split
        · exact Ends.ok ⟨S, fun _ => id, a⟩
        · have := rest (by omega) (1 + j) a
          simpa [Nat.add_assoc, Nat.add_comm, Nat.add_left_comm] using this
      · have hnb := noblank (hbl line (by rw [hl]; exact List.mem_cons_self) (by omega))
        have hp := (parseLine_ends (b := b) E pick line (line.takeWhile (· == 32)).length a hnb (hno' _) (hst' )).add (1 + j)
        refine Ends.bind (by simpa [Nat.add_assoc, Nat.add_comm, Nat.add_left_comm] using hp) ?_
        rintro s' ⟨S', h', a'⟩
        split
        · exact Ends.ok ⟨S', h', a'⟩
        · have := (rest (by omega) (1 + j) a').mono (fun x hx => hx.after h')
          simpa [Nat.add_assoc, Nat.add_comm, Nat.add_left_comm] using this
    · obtain ⟨hl, hln⟩ := linesOf_last hmore
      rw [if_neg hmore]
      rw [hln] at hno' hst' ⊢
      split
      · simp only [if_neg (show ¬data.length + 1 = data.length by omega), parseLoop_behind]
        refine Ends.loop (fun hb => hla hb (data.drop i) (by rw [hl]; rfl) (by omega))
      · have hnb := noblank (hbl (data.drop i) (by rw [hl]; exact List.mem_singleton.mpr rfl) (by omega))
        have hp := (parseLine_ends (b := b) E pick (data.drop i) ((data.drop i).takeWhile (· == 32)).length a hnb (hno' _) (hst' )).add (1 + j)
        refine Ends.bind (by simpa [Nat.add_assoc, Nat.add_comm, Nat.add_left_comm] using hp) ?_
        rintro s' n'
        simp only [if_pos (show data.length ≤ data.length + 1 by omega)]
        exact Ends.ok n'

/-- What a result with some fuel says. -/
theorem Ends.get {α : Type} {F : Nat → Res α} {P : α → Prop} (h : Ends b o F P) {f : Nat} {x : α} (e : F f = .ok x) : P x := h.1 f x e

theorem parseLine_blank (E : Env) (pick : Heap → Option Nat) (k : Nat) (line : Bytes) (sp : Nat) (s : St) (hl : line.drop sp = []) : parseLine E pick k line sp s = .panic := by
  unfold parseLine
  simp [hl]

theorem parseLine_fine {E : Env} {pick : Heap → Option Nat} {k : Nat} {line : Bytes} {sp : Nat} {s' : St} (a : Fine X h0 S s) (h : parseLine E pick k line sp s = .ok s') : Next X h0 S s' := by
  by_cases hl : line.drop sp = []
  · rw [parseLine_blank _ _ _ _ _ _ hl] at h; cases h
  · exact (parseLine_ends (b := False) (o := False) E pick line sp a hl nofun nofun).get h

/-- The result of the loop, for every text. -/
theorem parseLoop_fine {E : Env} {pick : Heap → Option Nat} {k : Nat} {data : Bytes} : ∀ (f i : Nat) {S : Ptr → Prop} {s s' : St}, Fine X h0 S s → parseLoop E pick k data f i s = .ok s' → Next X h0 S s'
  | 0, _, _, _, _, _, h => by cases h
  | f + 1, i, S, s, s', a, h => by
    rw [parseLoop] at h
    generalize (if ((data.drop i).takeWhile (· != 10)).length < (data.drop i).length then i + ((data.drop i).takeWhile (· != 10)).length else data.length) = stop at h
    split at h
    · split at h
      · cases h; exact ⟨S, fun _ => id, a⟩
      · exact parseLoop_fine f _ a h
    · obtain ⟨s1, h1, h⟩ := Res.bind_eq_ok.mp h
      obtain ⟨S1, e1, a1⟩ := parseLine_fine a h1
      split at h
      · cases h; exact ⟨S1, e1, a1⟩
      · exact (parseLoop_fine f _ a1 h).after e1

theorem parse_fine {E : Env} {pick : Heap → Option Nat} {f : Nat} {data : Bytes} {s' : St} (a : Fine X h0 S s) (h : parse E pick f data s = .ok s') : Next X h0 S s' := by
  unfold parse at h
  split at h
  · cases h; exact ⟨S, fun _ => id, a⟩
  · exact parseLoop_fine f 0 (s := { s with p := { s.p with last := -1 } }) ⟨a.young, a.stack, a.uses, a.cache, a.root⟩ h

/-- With enough fuel, a result. -/
def Stops {α : Type} (F : Nat → Res α) : Prop := ∃ r, r ≠ .loop ∧ ∃ N, ∀ f, N ≤ f → F f = r

theorem Stops.const {α : Type} {r : Res α} (h : r ≠ .loop) : Stops (fun _ => r) := ⟨r, h, 0, fun _ _ => rfl⟩

theorem Ends.stops {α β : Type} {F : Nat → Res α} {P : α → Prop} (h : Ends True o F P) {G : Nat → α → Res β} (hg : ∀ x, P x → Stops (fun f => G f x)) : Stops (fun f => (F f).bind (G f)) := by
  obtain ⟨h1, -, h2⟩ := h
  obtain ⟨r, hl, N, hN⟩ := h2 trivial
  cases r with
  | ok x =>
    obtain ⟨r', h', M, hM⟩ := hg x (h1 N x (hN N (Nat.le_refl _)))
    refine ⟨r', h', max N M, fun f hf => ?_⟩
    dsimp only
    rw [hN f (by omega)]
    exact hM f (by omega)
  | err e => exact ⟨.err e, by simp, N, fun f hf => by dsimp only; rw [hN f hf]; rfl⟩
  | panic => exact ⟨.panic, by simp, N, fun f hf => by dsimp only; rw [hN f hf]; rfl⟩
  | loop => exact absurd rfl hl

theorem Stops.shift {α : Type} {F G : Nat → Res α} (hs : ∀ f, F (f + 1) = G f) (h : Stops G) : Stops F := by
  obtain ⟨r, hr, N, hN⟩ := h
  refine ⟨r, hr, N + 1, fun f hf => ?_⟩
  cases f with
  | zero => omega
  | succ f => rw [hs]; exact hN f (by omega)

theorem parseLoop_stops (E : Env) (pick : Heap → Option Nat) (data : Bytes) : ∀ (m i j : Nat) {S : Ptr → Prop} {s : St}, data.length - i ≤ m → i < data.length → Fine X h0 S s →
    (∀ l, (linesOf (data.drop i)).getLast? = some l → l.length ≠ 1) → ¬[60, 60] <:+: data →
    Stops (fun f => parseLoop E pick (f + j) data f i s) := by
  intro m
  induction m with
  | zero => intro i j S s h1 h2; omega
  | succ m ih =>
    intro i j S s hm hi a hla hno
    refine Stops.shift (fun f => parseLoop.eq_2 ..) ?_
    have hlen : (data.drop i).length = data.length - i := List.length_drop
    have hno' : ∀ n, (splitKv (cutComment (((data.drop i).takeWhile (· != 10)).drop n))).1 ≠ [60, 60] := by
      intro n he
      apply hno
      have := (splitKv_infix (cutComment (((data.drop i).takeWhile (· != 10)).drop n))).trans (cutComment_infix _)
      rw [he] at this
      exact ((this.trans (List.drop_suffix _ _).isInfix).trans (List.takeWhile_prefix _).isInfix).trans (List.drop_suffix _ _).isInfix
    by_cases hmore : ((data.drop i).takeWhile (· != 10)).length < (data.drop i).length
    · have hl := linesOf_more hmore
      rw [if_pos hmore]
      generalize hln : (data.drop i).takeWhile (· != 10) = line at *
      have hdrop : (data.drop i).drop (line.length + 1) = data.drop (i + line.length + 1) := by rw [List.drop_drop]; congr 1
      rw [hdrop] at hl
      have rest : i + line.length + 1 < data.length → ∀ j' {S'} {s'}, Fine X h0 S' s' → Stops (fun f => parseLoop E pick (f + j') data f (i + line.length + 1) s') := by
        intro hlt j' S' s' a'
        refine ih (i + line.length + 1) j' (by omega) hlt a' ?_ hno
        intro l hl'
        refine hla l ?_
        rw [hl, List.getLast?_cons]
        simp [hl']
      split
      · split
        · exact Stops.const (by simp)
        · have := rest (by omega) (1 + j) a
          simpa [Nat.add_assoc, Nat.add_comm, Nat.add_left_comm] using this
      · by_cases hb : line.drop (line.takeWhile (· == 32)).length = []
        · simp only [parseLine_blank _ _ _ _ _ _ hb]
          exact Stops.const (r := .panic) (by simp)
        have hp := (parseLine_ends (b := True) (o := False) E pick line (line.takeWhile (· == 32)).length a hb (fun _ => hno' _) nofun).add (1 + j)
        refine Ends.stops (by simpa [Nat.add_assoc, Nat.add_comm, Nat.add_left_comm] using hp) ?_
        rintro s' ⟨S', h', a'⟩
        split
        · exact Stops.const (by simp)
        · have := rest (by omega) (1 + j) a'
          simpa [Nat.add_assoc, Nat.add_comm, Nat.add_left_comm] using this
    · obtain ⟨hl, hln⟩ := linesOf_last hmore
      rw [if_neg hmore]
      rw [hln] at hno' ⊢
      split
      · exact absurd (by omega) (hla (data.drop i) (by rw [hl]; rfl))
      · by_cases hb : (data.drop i).drop ((data.drop i).takeWhile (· == 32)).length = []
        · simp only [parseLine_blank _ _ _ _ _ _ hb]
          exact Stops.const (r := .panic) (by simp)
        have hp := (parseLine_ends (b := True) (o := False) E pick (data.drop i) ((data.drop i).takeWhile (· == 32)).length a hb (fun _ => hno' _) nofun).add (1 + j)
        refine Ends.stops (by simpa [Nat.add_assoc, Nat.add_comm, Nat.add_left_comm] using hp) ?_
        rintro s' n'
        simp only [if_pos (show data.length ≤ data.length + 1 by omega)]
        exact Stops.const (by simp)

theorem parse_stops (E : Env) (pick : Heap → Option Nat) (data : Bytes) (a : Fine X h0 S s) (hla : ∀ l, (linesOf data).getLast? = some l → l.length ≠ 1) (hno : ¬[60, 60] <:+: data) :
    Stops (fun f => parse E pick f data s) := by
  unfold parse
  split
  · exact Stops.const (by simp)
  · rename_i hd
    have a' : Fine X h0 S { s with p := { s.p with last := -1 } } := ⟨a.young, a.stack, a.uses, a.cache, a.root⟩
    exact parseLoop_stops E pick data data.length 0 0 (by omega) (List.length_pos_iff.mpr hd) a' (by simpa using hla) hno

/-- A last line of one byte: no result. -/
theorem parseLoop_never (E : Env) (pick : Heap → Option Nat) (k : Nat) (data : Bytes) : ∀ (f i : Nat) (s s' : St), i < data.length →
    (∃ l, (linesOf (data.drop i)).getLast? = some l ∧ l.length = 1) → parseLoop E pick k data f i s ≠ .ok s'
  | 0, _, _, _, _, _ => by simp [parseLoop]
  | f + 1, i, s, s', hi, ⟨l, hl, h1⟩ => by
    intro h
    rw [parseLoop] at h
    have hlen : (data.drop i).length = data.length - i := List.length_drop
    by_cases hmore : ((data.drop i).takeWhile (· != 10)).length < (data.drop i).length
    · have he := linesOf_more hmore
      rw [if_pos hmore] at h
      generalize hln : (data.drop i).takeWhile (· != 10) = line at *
      have hdrop : (data.drop i).drop (line.length + 1) = data.drop (i + line.length + 1) := by rw [List.drop_drop]; congr 1
      rw [hdrop] at he
      have hl' : (linesOf (data.drop (i + line.length + 1))).getLast? = some l := by
        rw [he, List.getLast?_cons] at hl
        rcases hx : (linesOf (data.drop (i + line.length + 1))).getLast? with _ | y
        · exact absurd (List.getLast?_eq_none_iff.mp hx) (linesOf_ne _)
        · rw [hx] at hl; exact hl
      have hlt : i + line.length + 1 < data.length := by
        refine Nat.lt_of_le_of_ne (by omega) (fun h2 => ?_)
        rw [h2, List.drop_length] at hl'
        cases hl'
        simp at h1
      split at h
      · rw [if_neg (by omega)] at h
        exact parseLoop_never E pick k data f _ s s' hlt ⟨l, hl', h1⟩ h
      · obtain ⟨s1, -, h⟩ := Res.bind_eq_ok.mp h
        rw [if_neg (by omega)] at h
        exact parseLoop_never E pick k data f _ s1 s' hlt ⟨l, hl', h1⟩ h
    · obtain ⟨he, hln⟩ := linesOf_last hmore
      rw [he] at hl
      have h2 : data.drop i = l := by simpa using hl
      rw [← h2] at h1
      have h3 : data.length - i = 1 := by rw [← hlen]; exact h1
      rw [if_neg hmore, if_pos (show data.length < i + 2 by omega), if_neg (by omega), parseLoop_behind] at h
      cases h

theorem parse_never (E : Env) (pick : Heap → Option Nat) (f : Nat) (data : Bytes) (s s' : St) (h : ∃ l, (linesOf data).getLast? = some l ∧ l.length = 1) : parse E pick f data s ≠ .ok s' := by
  unfold parse
  split
  · rename_i hd
    subst hd
    obtain ⟨l, h1, h2⟩ := h
    cases h1
    cases h2
  · rename_i hd
    exact parseLoop_never E pick f data f 0 _ s' (List.length_pos_iff.mpr hd) (by simpa using h)

/-- The conditions on a text: see `Props/Yaml.lean`. -/
theorem parse_ends (E : Env) (pick : Heap → Option Nat) (data : Bytes) (a : Fine X h0 S s) (hbl : ∀ l ∈ linesOf data, 2 ≤ l.length → ∃ c ∈ l, c ≠ 32)
    (hla : b → ∀ l, (linesOf data).getLast? = some l → l.length ≠ 1) (hno : b → ¬[60, 60] <:+: data) (hst : o → 42 ∉ data) :
    Ends b o (fun f => parse E pick f data s) (Next X h0 S) := by
  unfold parse
  split
  · exact Ends.ok ⟨S, fun _ => id, a⟩
  · rename_i hd
    have a' : Fine X h0 S { s with p := { s.p with last := -1 } } := ⟨a.young, a.stack, a.uses, a.cache, a.root⟩
    exact parseLoop_ends E pick data data.length 0 0 (by omega) (List.length_pos_iff.mpr hd) a' (by simpa using hbl) (by simpa using hla) hno hst

end

end Dxs.Yaml
