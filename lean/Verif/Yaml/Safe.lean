import Verif.Yaml.Ends

/-!
# Every step of the parser keeps its nodes in order
-/

namespace Dxs.Yaml

open Dxs.Heap

/-- The parser's pointers are nodes of `S`. -/
structure Fine (X : List Ptr) (h0 : Heap) (S : Ptr → Prop) (s : St) : Prop where
  young : Young Full X h0 S s.h
  stack : ∀ n ∈ s.p.stack, S n.v
  uses : ∀ u ∈ s.p.uses, S u.2
  cache : ∀ d, s.p.cache = some d → d < s.h.nextC
  root : ∀ r, s.p.root = some r → S r

/-- Afterwards the same with more nodes. -/
def Next (X : List Ptr) (h0 : Heap) (S : Ptr → Prop) (s : St) : Prop := ∃ S', (∀ q, S q → S' q) ∧ Fine X h0 S' s

section
variable {X : List Ptr} {h0 : Heap} {S : Ptr → Prop} {s : St} {b o : Prop}

theorem Fine.go (a : Fine X h0 S s) {S' : Ptr → Prop} {h' : Heap} (g : Go Full X h0 S s.h S' h') : Fine X h0 S' { s with h := h' } :=
  ⟨g.young, fun n hn => g.sub _ (a.stack n hn), fun u hu => g.sub _ (a.uses u hu), fun d hd => Nat.lt_of_lt_of_le (a.cache d hd) g.nextC,
   fun r hr => g.sub r (a.root r hr)⟩

theorem Fine.next (a : Fine X h0 S s) {S' : Ptr → Prop} {h' : Heap} (g : Go Full X h0 S s.h S' h') : Next X h0 S { s with h := h' } := ⟨S', g.sub, a.go g⟩

theorem Next.after {S1 : Ptr → Prop} (hs : ∀ q, S q → S1 q) {s' : St} (n : Next X h0 S1 s') : Next X h0 S s' := by
  obtain ⟨S2, h2, f⟩ := n
  exact ⟨S2, fun q hq => h2 q (hs q hq), f⟩

theorem Fine.push (a : Fine X h0 S s) {q : Ptr} (hq : S q) (m : Bool) (sp : Int) : Fine X h0 S (push s m sp q) :=
  ⟨a.young, by
    intro n hn
    simp only [Yaml.push, List.mem_cons] at hn
    rcases hn with rfl | hn
    · exact hq
    · exact a.stack n hn, a.uses, a.cache, a.root⟩

theorem setUse_mem {name : Bytes} {v : Ptr} {l : List (Bytes × Ptr)} {u : Bytes × Ptr} (h : u ∈ setUse name v l) : u ∈ l ∨ u.2 = v := by
  induction l with
  | nil => simp [setUse] at h; exact Or.inr (by rw [h])
  | cons a l ih =>
    obtain ⟨k, w⟩ := a
    simp only [setUse] at h
    split at h
    · simp only [List.mem_cons] at h
      rcases h with rfl | h
      · exact Or.inr rfl
      · exact Or.inl (by simp [h])
    · simp only [List.mem_cons] at h
      rcases h with rfl | h
      · exact Or.inl (by simp)
      · exact (ih h).imp (by simp_all) id

theorem getUse_mem {name : Bytes} {l : List (Bytes × Ptr)} {u : Ptr} (h : getUse name l = some u) : ∃ k, (k, u) ∈ l := by
  unfold getUse at h
  rw [Option.map_eq_some_iff] at h
  obtain ⟨⟨k, w⟩, h1, rfl⟩ := h
  exact ⟨k, List.mem_of_find?_eq_some h1⟩

theorem Fine.use (a : Fine X h0 S s) {q : Ptr} (hq : S q) (name : Bytes) : Fine X h0 S { s with p := { s.p with uses := setUse name q s.p.uses } } :=
  ⟨a.young, a.stack, fun u hu => (setUse_mem hu).elim (a.uses u) (fun h => h ▸ hq), a.cache, a.root⟩

theorem Fine.getUse (a : Fine X h0 S s) {name : Bytes} {u : Ptr} (h : getUse name s.p.uses = some u) : S u := by
  obtain ⟨k, hk⟩ := getUse_mem h
  exact a.uses _ hk

theorem trim_sub {l : Bytes} {c : UInt8} (h : c ∈ trim l) : c ∈ l := by
  unfold trim at h
  rw [List.mem_reverse] at h
  have := (List.dropWhile_sublist isSp).mem h
  rw [List.mem_reverse] at this
  exact (List.dropWhile_sublist isSp).mem this

theorem splitKv_sub {l : Bytes} {c : UInt8} (h : c ∈ (splitKv l).1 ∨ c ∈ (splitKv l).2.1) : c ∈ l := by
  unfold splitKv at h
  dsimp only at h
  split at h
  · exact trim_sub (by simpa using h)
  split at h
  · split at h
    · exact h.elim (fun h => trim_sub (List.mem_of_mem_take (trim_sub h))) (fun h => trim_sub (List.mem_of_mem_drop (trim_sub h)))
    · exact trim_sub (by simpa using h)
  · exact h.elim (fun h => trim_sub (List.mem_of_mem_take (trim_sub h))) (fun h => trim_sub (List.mem_of_mem_drop (trim_sub h)))

theorem strVal_ends (E : Env) (a : Fine X h0 S s) {t : Ptr} (ht : S t) {v : Bytes} (hv : v ≠ []) (hs : o → 42 ∉ v) {amp : Nat → Res St} (ha : Ends b o amp (Next X h0 S)) :
    Ends b o (fun k => strVal E k (amp k) s t v) (Next X h0 S) := by
  unfold strVal
  split
  · exact Ends.ok (a.next (a.young.setBool ht _))
  split
  · exact Ends.ok (a.next (a.young.setBool ht _))
  split
  · exact Ends.ok (a.next (a.young.setDouble ht _))
  obtain ⟨c, r, rfl⟩ := List.exists_cons_of_ne_nil hv
  simp only [List.head?_cons]
  have same : Ends b o (fun _ => Res.ok s) (Next X h0 S) := Ends.ok ⟨S, fun _ => id, a⟩
  split
  · exact same
  split
  · exact same
  split
  · exact ha
  split
  · split
    · exact Ends.ok (a.next (a.young.setString ht _))
    · rename_i u hu
      refine Ends.bind (copyFrom_ends (fun h => hs h (by simp_all)) a.young a.cache ht (a.getUse hu)) ?_
      rintro h1 ⟨S1, g⟩
      exact Ends.ok (a.next g)
  · exact Ends.ok (a.next (a.young.setString ht _))

theorem strVal2_ends (E : Env) (a : Fine X h0 S s) {t : Ptr} (ht : S t) {v : Bytes} (hv : v ≠ []) (hs : o → 42 ∉ v) : Ends b o (fun k => strVal2 E k s t v) (Next X h0 S) :=
  strVal_ends E a ht hv hs (Ends.ok (a.next (a.young.setString ht _)))

theorem strVal1_ends (E : Env) (a : Fine X h0 S s) {t : Ptr} (ht : S t) {v : Bytes} (hv : v ≠ []) (hs : o → 42 ∉ v) : Ends b o (fun k => strVal1 E k s t v) (Next X h0 S) := by
  unfold strVal1
  refine strVal_ends E a ht hv hs ?_
  split
  · exact Ends.ok (a.next (a.young.setString ht _))
  · dsimp only
    split
    · exact Ends.ok ((a.use ht _).next (a.young.setString ht _))
    · exact strVal2_ends E (a.use ht _) ht (by assumption) (fun h hm => hs h (List.mem_of_mem_drop (trim_sub hm)))

/-- A node and the state. -/
def NextP (X : List Ptr) (h0 : Heap) (S : Ptr → Prop) (x : Ptr × St) : Prop := ∃ S', (∀ q, S q → S' q) ∧ Fine X h0 S' x.2 ∧ S' x.1

theorem putKey_ends (E : Env) (a : Fine X h0 S s) {cur : Ptr} (hc : S cur) (k : Bytes) (t : VT) (ht : t ≠ .binary := by decide) : Ends b o (fun _ => putKey E s cur k t) (NextP X h0 S) := by
  obtain ⟨q, h', S', e, g, hq⟩ := a.young.setKeyCached E hc k t ht a.cache
  unfold putKey
  rw [e]
  exact Ends.ok ⟨S', g.sub, a.go g, hq⟩

theorem putStr_ends (E : Env) (a : Fine X h0 S s) {cur : Ptr} (hc : S cur) (key : Bytes) {v : Bytes} (hv : v ≠ []) (hs : o → 42 ∉ v) :
    Ends b o (fun k => do let (q, s) ← putKey E s cur key .string; let s ← strVal1 E k s q v; .ok (q, s)) (NextP X h0 S) := by
  refine Ends.bind (putKey_ends E a hc key .string) ?_
  rintro ⟨q, s1⟩ ⟨S1, h1, a1, hq⟩
  refine Ends.bind (strVal1_ends E a1 hq hv hs) ?_
  rintro s2 ⟨S2, h2, a2⟩
  exact Ends.ok ⟨S2, fun q hq => h2 q (h1 q hq), a2, h2 q hq⟩

theorem NextP.push {x : Ptr × St} (n : NextP X h0 S x) (m : Bool) (sp : Int) : Next X h0 S (push x.2 m sp x.1) := by
  obtain ⟨S1, h1, a1, hq⟩ := n
  exact ⟨S1, h1, a1.push hq m sp⟩

theorem newRoot_fine (pick : Heap → Option Nat) {t : VT} (ht : constOf t = none) (hb : t ≠ .binary) (a : Fine X h0 S s) :
    ∃ S', (∀ q, S q → S' q) ∧ Fine X h0 S' (newRoot pick t s) ∧ ∃ n, (newRoot pick t s).p.stack = [n] := by
  have hI := a.young.inv.getCache (pick s.h)
  have hm := fun q hq => getCache_mem a.young.inv (pick s.h) (q := q) hq
  have hav := getCache_avail a.young.inv (pick s.h)
  have hle : s.h.nextC ≤ (Heap.getCache s.h (pick s.h)).2.nextC := by
    unfold Heap.getCache
    split
    · exact (newCache_spec a.young.inv true 0 (by omega)).1.nextC
    · exact Nat.le_refl _
  have e : newCacheValue s.h t (pick s.h) = Heap.getValue (Heap.getCache s.h (pick s.h)).2 (some (Heap.getCache s.h (pick s.h)).1) t := by
    unfold newCacheValue; rw [ht]
  unfold newRoot
  rw [e]
  generalize Heap.getCache s.h (pick s.h) = r at hI hm hav hle ⊢
  obtain ⟨c, h1⟩ := r
  simp only at hI hm hav hle ⊢
  have y := a.young
  have hsame : ∀ q, S q → h1.mem q = s.h.mem q := fun q hq => hm q (y.live q hq)
  have y1 : Go Full X h0 S s.h S h1 := by
    refine ⟨⟨hI.1, fun q hq => y.avail q (hav q hq), ?_, y.ge, y.new, fun q hq h => y.live q hq (hav q h), ?_, ?_, fun q hq => by rw [hsame q hq]; exact y.bin q hq⟩, fun _ => id, hle⟩
    · intro q hq hX
      rw [hm q (fun h => hq (y.avail q h))]; exact y.mem q hq hX
    · intro q hq b hb
      rw [hsame q hq] at hb
      exact y.kids q hq b hb
    · intro q hq
      have key : ∀ r, Acc (KidOf s.h) r → S r → Acc (KidOf h1) r := by
        intro r hr
        induction hr with
        | intro r _ ih =>
          intro hS
          refine Acc.intro r (fun x hx => ?_)
          unfold KidOf at hx
          rw [hsame r hS] at hx
          exact ih x hx (y.kid r hS hx)
      exact key q (y.acc q hq) hq
  have g := y1.trans (y1.young.getValue (c := some c) (fun d hd => by cases hd; exact hI.2) t hb)
  have hcl : c < (Heap.getValue h1 (some c) t).2.nextC := Nat.lt_of_lt_of_le hI.2 (y1.young.getValue (c := some c) (fun d hd => by cases hd; exact hI.2) t hb).nextC
  generalize Heap.getValue h1 (some c) t = gv at g hcl ⊢
  obtain ⟨q, h2⟩ := gv
  simp only at g hcl ⊢
  split
  all_goals
    refine ⟨more S q, fun _ => Or.inl, ⟨g.young, ?_, fun u hu => Or.inl (a.uses u hu), ?_, ?_⟩, _, rfl⟩
    · intro n hn
      simp only [List.mem_singleton] at hn
      subst hn
      exact Or.inr rfl
  · intro d hd; simp only [Option.some.injEq] at hd; subst hd; exact hcl
  · intro r hr; simp only [Option.some.injEq] at hr; subst hr; exact Or.inr rfl
  · intro d hd; exact g.young.inv.owner q d hd
  · intro r hr; simp only [Option.some.injEq] at hr; subst hr; exact Or.inr rfl

/-- The current node, after the root was made if there was none. -/
theorem top_fine (pick : Heap → Option Nat) {t : VT} (ht : constOf t = none) (hb : t ≠ .binary) (a : Fine X h0 S s) :
    ∃ S' n l, (∀ q, S q → S' q) ∧ Fine X h0 S' (if s.p.stack = [] then newRoot pick t s else s) ∧ (if s.p.stack = [] then newRoot pick t s else s).p.stack = n :: l ∧ S' n.v := by
  split
  · obtain ⟨S', h1, a1, n, hn⟩ := newRoot_fine pick ht hb a
    exact ⟨S', n, [], h1, a1, hn, a1.stack n (by rw [hn]; simp)⟩
  · rename_i hs
    obtain ⟨n, l, hn⟩ := List.exists_cons_of_ne_nil hs
    exact ⟨S, n, l, fun _ => id, a, hn, a.stack n (by rw [hn]; simp)⟩

theorem splitKv_none {l : Bytes} (h : (splitKv l).2.2 = false) : (splitKv l).1 = trim l := by
  unfold splitKv at h ⊢
  dsimp only at h ⊢
  split
  · rfl
  · split
    · split
      · simp_all
      · rfl
    · simp_all

theorem dropWhile_idem {p : UInt8 → Bool} : ∀ (l : Bytes), (l.dropWhile p).dropWhile p = l.dropWhile p
  | [] => rfl
  | c :: l => by
    rw [List.dropWhile_cons]
    split
    · exact dropWhile_idem l
    · rename_i h; rw [List.dropWhile_cons, if_neg h]

theorem isSp_of_trim {l : Bytes} (h : trim l = []) : ∀ c ∈ l, isSp c = true := by
  have hd : ∀ l : Bytes, l.dropWhile isSp = [] → ∀ c ∈ l, isSp c = true := by
    intro l
    induction l with
    | nil => simp
    | cons a l ih =>
      intro h
      rw [List.dropWhile_cons] at h
      split at h
      · rename_i ha
        intro c hc
        simp only [List.mem_cons] at hc
        rcases hc with rfl | hc
        · exact ha
        · exact ih h c hc
      · cases h
  unfold trim at h
  simp only [List.reverse_eq_nil_iff] at h
  have h1 := hd _ h
  have h2 : l.dropWhile isSp = [] := by
    cases hl : l.dropWhile isSp with
    | nil => rfl
    | cons a r =>
      have : isSp a = true := h1 a (by rw [hl]; simp)
      have h3 := dropWhile_idem (p := isSp) l
      rw [hl, List.dropWhile_cons, if_pos this] at h3
      have := congrArg List.length h3
      have h4 := (List.dropWhile_sublist isSp (l := r)).length_le
      simp at this; omega
  exact hd l h2

theorem dropWhile_all {l : Bytes} (h : ∀ c ∈ l, isSp c = true) : l.dropWhile isSp = [] := by
  induction l with
  | nil => rfl
  | cons a l ih =>
    rw [List.dropWhile_cons, if_pos (h a (by simp))]
    exact ih (fun c hc => h c (by simp [hc]))

theorem trim_trim_ne {l : Bytes} (h : trim l ≠ []) : trim (trim l) ≠ [] := by
  intro h1
  apply h
  have h2 := isSp_of_trim h1
  unfold trim
  rw [List.reverse_eq_nil_iff]
  apply dropWhile_all
  intro c hc
  by_cases hs : isSp c = true
  · exact hs
  · refine h2 c ?_
    unfold trim
    rw [List.mem_reverse]
    have key : ∀ (m : Bytes), c ∈ m → c ∈ m.dropWhile isSp := by
      intro m
      induction m with
      | nil => simp
      | cons a m ih =>
        intro hm
        rw [List.dropWhile_cons]
        split
        · rename_i ha
          simp only [List.mem_cons] at hm
          rcases hm with rfl | hm
          · exact absurd ha hs
          · exact ih hm
        · exact hm
    exact key _ hc

theorem appendStr_ends (E : Env) (a : Fine X h0 S s) {cur : Ptr} (hc : S cur) (ho : (s.h.mem cur).dt ≠ .object) (hr : (s.h.mem cur).dt ≠ .array) (w : Bytes → Bytes) :
    Ends b o (fun _ => do
      let r := Heap.getString E .panic (s.h.mem cur)
      let t ← r.1
      .ok { s with h := Heap.setString (s.h.set cur r.2) cur (w t) }) (Next X h0 S) := by
  have g := a.young.getString hc E .panic
  obtain ⟨t, ht⟩ : ∃ t, (Heap.getString E .panic (s.h.mem cur)).1 = .ok t := by
    have hb := a.young.bin cur hc
    unfold Heap.getString
    split <;> first | contradiction | exact ⟨_, rfl⟩
  dsimp only
  rw [ht]
  exact Ends.ok (a.next (g.trans (g.young.setString hc _)))

theorem parseArray_ends (E : Env) (pick : Heap → Option Nat) (line : Bytes) (sp : Int) (a : Fine X h0 S s) (hs : o → 42 ∉ line) :
    Ends b o (fun k => parseArray E pick k line sp s) (Next X h0 S) := by
  unfold parseArray
  split
  · exact Ends.err
  obtain ⟨S1, n, l0, hs1, a1, hst, hn⟩ := top_fine pick (t := .array) rfl (by decide) a
  dsimp only
  generalize (if s.p.stack = [] then newRoot pick .array s else s) = s1 at a1 hst ⊢
  simp only [hst, List.head?_cons]
  have g2 : Go Full X h0 S1 s1.h S1 (if (s1.h.mem n.v).dt = .object then { s1 with h := Heap.reset s1.h n.v .array } else s1).h := by
    split
    · exact a1.young.reset hn .array
    · exact a1.young.refl
  have a2 : Fine X h0 S1 (if (s1.h.mem n.v).dt = .object then { s1 with h := Heap.reset s1.h n.v .array } else s1) := by
    split
    · exact a1.go (a1.young.reset hn .array)
    · exact a1
  have hno : ((if (s1.h.mem n.v).dt = .object then { s1 with h := Heap.reset s1.h n.v .array } else s1).h.mem n.v).dt ≠ .object := by
    split
    · simp only; rw [reset_mem (a1.young.ge _ hn)]; simp [Node.reset]
    · assumption
  generalize (if (s1.h.mem n.v).dt = .object then { s1 with h := Heap.reset s1.h n.v .array } else s1) = s2 at g2 a2 hno ⊢
  have fin : ∀ {s'}, Next X h0 S1 s' → Next X h0 S s' := fun h => h.after hs1
  split
  · rename_i hd
    obtain ⟨S3, g3, hq⟩ := a2.young.setIndexCached hn (-1) (if trim line ≠ [] then VT.string else VT.array) (by split <;> decide) a2.cache
    generalize Heap.setIndexCached s2.h n.v (-1) (if trim line ≠ [] then VT.string else VT.array) s2.p.cache = r at g3 hq ⊢
    obtain ⟨q, h3⟩ := r
    simp only at g3 hq ⊢
    have a3 := (a2.go g3).push hq false sp
    have fin3 : ∀ {s'}, Next X h0 S3 s' → Next X h0 S s' := fun h => fin (h.after g3.sub)
    split
    · exact Ends.ok (fin3 ⟨S3, fun _ => id, a3⟩)
    · rename_i hl
      rcases hkv : splitKv (trim line) with ⟨key, v, split⟩
      simp only
      split
      · have hk : key ≠ [] := by
          have := splitKv_none (l := trim line) (by rw [hkv]; simp_all)
          rw [hkv] at this
          simp only at this
          rw [this]
          exact trim_trim_ne hl
        exact (strVal1_ends E a3 hq hk (fun h hm => hs h (trim_sub (splitKv_sub (Or.inl (by rw [hkv]; exact hm)))))).mono (fun _ h => fin3 h)
      · split
        · exact Ends.err
        · have a4 : Fine X h0 S3 { p := { (push { p := s2.p, h := h3 } false sp q).p with first := true, stack := (push { p := s2.p, h := h3 } false sp q).p.stack.modifyHead (fun n => { n with isMap := true }) }, h := Heap.reset h3 q .object } := by
            have g4 := a3.young.reset hq .object
            refine ⟨g4.young, ?_, a3.uses, fun d hd => Nat.lt_of_lt_of_le (a3.cache d hd) g4.nextC, a3.root⟩
            intro m hm
            simp only [Yaml.push, List.modifyHead_cons, List.mem_cons] at hm
            rcases hm with rfl | hm
            · exact hq
            · exact a3.stack m (by simp [Yaml.push, hm])
          split
          · refine Ends.bind (putKey_ends E a4 hq key .null) ?_
            rintro x hx
            exact Ends.ok (fin3 (hx.push _ _))
          · rename_i hv
            refine Ends.bind (putKey_ends E a4 hq key .string) ?_
            rintro ⟨c, s5⟩ ⟨S5, h5, a5, hc⟩
            refine Ends.bind (strVal1_ends E a5 hc hv (fun h hm => hs h (trim_sub (splitKv_sub (Or.inr (by rw [hkv]; exact hm)))))) ?_
            rintro s6 ⟨S6, h6, a6⟩
            exact Ends.ok (fin3 ⟨S6, fun q hq => h6 q (h5 q hq), a6.push (h6 _ hc) _ _⟩)
  · rename_i hd
    split
    · exact Ends.ok (fin ⟨S1, fun _ => id, a2⟩)
    · exact (appendStr_ends E a2 hn hno hd (fun t => t ++ [32] ++ trim line)).mono (fun _ h => fin h)

/-- The flag and the state. -/
def NextB (X : List Ptr) (h0 : Heap) (S : Ptr → Prop) (s : St) (x : Bool × St) : Prop := Next X h0 S x.2 ∧ (x.1 = false → x.2 = s)

theorem mergeRef_ends (a : Fine X h0 S s) {cur : Ptr} (hc : S cur) (line key v : Bytes) (hm : b → key ≠ [60, 60]) (hs : o → 42 ∉ v) :
    Ends b o (fun k => mergeRef k s cur line key v) (NextB X h0 S s) := by
  have no : Ends b o (fun _ => Res.ok (false, s)) (NextB X h0 S s) := Ends.ok ⟨⟨S, fun _ => id, a⟩, fun _ => rfl⟩
  unfold mergeRef
  split
  · rename_i hk
    rcases hvh : v.head? with _ | c
    · exact Ends.err
    dsimp only
    split
    · rename_i hc42
      have h42 : 42 ∈ v := List.mem_of_mem_head? (by rw [hvh, hc42.1]; rfl)
      split
      · exact no
      · rename_i u hu
        split
        · rename_i hd
          refine Ends.bind (addFrom_ends (fun h => hs h h42) a.young a.cache hc (a.getUse hu) hd (fun h => absurd hk (hm h))) ?_
          rintro h1 ⟨S1, g⟩
          exact Ends.ok ⟨a.next g, nofun⟩
        · exact no
    · exact no
  · exact no

theorem objSame_ends (E : Env) (line : Bytes) (sp : Int) (key v : Bytes) (split : Bool) (a : Fine X h0 S s) {cur : Ptr} (hc : S cur) (hm : b → key ≠ [60, 60]) (hs : o → 42 ∉ v) :
    Ends b o (fun k => objSame E k line sp key v split cur s) (Next X h0 S) := by
  unfold objSame
  split
  · exact Ends.err
  refine Ends.bind (mergeRef_ends a hc line key v hm hs) ?_
  rintro ⟨mg, s1⟩ ⟨⟨S1, h1, a1⟩, -⟩
  dsimp only
  split
  · exact Ends.ok ⟨S1, h1, a1.push (h1 _ hc) _ _⟩
  split
  · rename_i hv
    refine Ends.bind (putKey_ends E a1 (h1 _ hc) key .string) ?_
    rintro ⟨q, s2⟩ ⟨S2, h2, a2, hq⟩
    refine Ends.bind (strVal1_ends E a2 hq hv hs) ?_
    rintro s3 ⟨S3, h3, a3⟩
    exact Ends.ok ⟨S3, fun q hq => h3 q (h2 q (h1 q hq)), a3.push (h3 _ hq) _ _⟩
  · refine Ends.bind (putKey_ends E a1 (h1 _ hc) key .object) ?_
    rintro x hx
    exact Ends.ok ((hx.push _ _).after h1)

theorem objMember_ends (E : Env) (key v : Bytes) (a : Fine X h0 S s) {cur : Ptr} (hc : S cur) (ho : (s.h.mem cur).dt.ord < 11) (hs : o → 42 ∉ v) :
    Ends b o (fun k => objMember E k key v cur s) (NextP X h0 S) := by
  unfold objMember
  split
  · exact putKey_ends E a hc key .object
  rename_i c hv
  have hne : v ≠ [] := by rintro rfl; cases hv
  split
  · dsimp only
    generalize hnw : (if 0 < ((v.drop 1).findIdx? (· == 32)).getD 0 then _ else _ : Bytes × Bytes) = nw
    have hsw : o → 42 ∉ nw.2 := by
      intro h hm
      rw [← hnw] at hm
      split at hm
      · exact hs h (List.mem_of_mem_drop (List.mem_of_mem_drop (trim_sub hm)))
      · simp at hm
    obtain ⟨name, w⟩ := nw
    simp only at hsw ⊢
    have fin : ∀ x : Ptr × St, NextP X h0 S x → Ends b o (fun _ => Res.ok (x.1, { x.2 with p := { x.2.p with uses := setUse name x.1 x.2.p.uses } })) (NextP X h0 S) := by
      rintro ⟨q, s1⟩ ⟨S1, h1, a1, hq⟩
      exact Ends.ok ⟨S1, h1, a1.use hq _, hq⟩
    split
    · refine Ends.bind (putKey_ends E a hc key .object) ?_
      rintro ⟨q, s1⟩ hx
      exact fin _ hx
    · rename_i hw
      refine Ends.bind (putKey_ends E a hc key .string) ?_
      rintro ⟨q, s1⟩ ⟨S1, h1, a1, hq⟩
      refine Ends.bind (strVal1_ends E a1 hq hw hsw) ?_
      rintro s2 ⟨S2, h2, a2⟩
      exact fin (q, s2) ⟨S2, fun q hq => h2 q (h1 q hq), a2, h2 _ hq⟩
  split
  · split
    · rename_i u hu
      refine Ends.bind (clone_ends a.young a.cache (a.getUse hu) (fun _ _ => id)) ?_
      rintro ⟨q, h1⟩ ⟨S1, c1, hq⟩
      have hp : ¬InCopy S S1 h1 cur := by
        rintro ⟨-, h | h⟩
        · exact h hc
        · rw [c1.same cur hc] at h; omega
      have g := c1.toGo.trans (c1.young.setKeyValue E (c1.sub _ hc) hq.1 key (InCopy S S1 h1) hq hp (fun z x hz hx => c1.closed z x hz.1 hz.2 hx))
      exact Ends.ok ⟨S1, g.sub, a.go g, hq.1⟩
    · refine Ends.bind (putKey_ends E a hc key .string) ?_
      rintro ⟨q, s1⟩ ⟨S1, h1, a1, hq⟩
      exact Ends.ok ⟨S1, h1, a1.go (a1.young.setString hq _), hq⟩
  · exact putStr_ends E a hc key hne hs

theorem objChild_ends (E : Env) (line : Bytes) (sp : Int) (key v : Bytes) (a : Fine X h0 S s) {cur : Ptr} (hc : S cur) (hm : b → key ≠ [60, 60]) (hs : o → 42 ∉ v) :
    Ends b o (fun k => objChild E k line sp key v cur s) (Next X h0 S) := by
  unfold objChild
  split
  · split
    · exact Ends.err
    · rename_i hd
      exact appendStr_ends E a hc (fun h => hd (Or.inl h)) (fun h => hd (Or.inr h)) (fun t => t ++ [32, 58] ++ v)
  · have a1 : Fine X h0 S (if (s.h.mem cur).dt = .object then s else { s with h := Heap.reset s.h cur .object }) := by
      split
      · exact a
      · exact a.go (a.young.reset hc .object)
    have hd : ((if (s.h.mem cur).dt = .object then s else { s with h := Heap.reset s.h cur .object }).h.mem cur).dt = .object := by
      split
      · assumption
      · simp only; rw [reset_mem (a.young.ge _ hc)]; rfl
    dsimp only
    generalize (if (s.h.mem cur).dt = .object then s else { s with h := Heap.reset s.h cur .object }) = s1 at a1 hd ⊢
    refine Ends.bind (mergeRef_ends a1 hc line key v hm hs) ?_
    rintro ⟨mg, s2⟩ ⟨⟨S2, h2, a2⟩, he⟩
    dsimp only at *
    split
    · exact Ends.ok ⟨S2, h2, a2.push (h2 _ hc) _ _⟩
    · rename_i hf
      have := he (by simpa using hf)
      subst this
      refine Ends.bind (objMember_ends E key v a1 hc (by rw [hd]; decide) hs) ?_
      rintro x hx
      exact Ends.ok (hx.push _ _)

theorem objBack_ends (E : Env) (line : Bytes) (sp : Int) (key v : Bytes) (split : Bool) (a : Fine X h0 S s) {cur : Ptr} (hc : S cur) (hm : b → key ≠ [60, 60]) (hs : o → 42 ∉ v) :
    Ends b o (fun k => objBack E k line sp key v split cur s) (Next X h0 S) := by
  unfold objBack
  split
  · exact Ends.err
  split
  · refine Ends.bind (putKey_ends E a hc key .object) ?_
    rintro x hx
    exact Ends.ok (hx.push _ _)
  · rename_i hv
    refine Ends.bind (mergeRef_ends a hc line key v hm hs) ?_
    rintro ⟨mg, s1⟩ ⟨⟨S1, h1, a1⟩, -⟩
    dsimp only
    split
    · exact Ends.ok ⟨S1, h1, a1.push (h1 _ hc) _ _⟩
    · refine Ends.bind (putKey_ends E a1 (h1 _ hc) key .string) ?_
      rintro ⟨q, s2⟩ ⟨S2, h2, a2, hq⟩
      refine Ends.bind (strVal1_ends E a2 hq hv hs) ?_
      rintro s3 ⟨S3, h3, a3⟩
      exact Ends.ok ⟨S3, fun q hq => h3 q (h2 q (h1 q hq)), a3.push (h3 _ hq) _ _⟩

theorem parseObject_ends (E : Env) (pick : Heap → Option Nat) (line : Bytes) (sp : Int) (a : Fine X h0 S s) (hm : b → (splitKv line).1 ≠ [60, 60]) (hs : o → 42 ∉ line) :
    Ends b o (fun k => parseObject E pick k line sp s) (Next X h0 S) := by
  unfold parseObject
  obtain ⟨S1, n, l0, hs1, a1, hst, hn⟩ := top_fine pick (t := .object) rfl (by decide) a
  dsimp only
  generalize (if s.p.stack = [] then newRoot pick .object s else s) = s1 at a1 hst ⊢
  simp only [hst, List.head?_cons]
  have a2 : Fine X h0 S1 { s1 with p := { s1.p with first := false, stack := n :: l0 } } := ⟨a1.young, by rw [← hst]; exact a1.stack, a1.uses, a1.cache, a1.root⟩
  rcases hkv : splitKv line with ⟨key, v, split⟩
  rw [hkv] at hm
  simp only at hm ⊢
  have fin : ∀ {s'}, Next X h0 S1 s' → Next X h0 S s' := fun h => h.after hs1
  generalize (if ¬s.p.stack = [] ∧ s1.p.first = true ∧ n.isMap = true then s1.p.last + 2 else s1.p.last) = last
  split
  · exact Ends.err
  split
  · exact (objSame_ends E line sp key v split a2 hn hm (fun h hm => hs h (splitKv_sub (Or.inr (by rw [hkv]; exact hm))))).mono (fun _ h => fin h)
  split
  · exact (objChild_ends E line sp key v a2 hn hm (fun h hm => hs h (splitKv_sub (Or.inr (by rw [hkv]; exact hm))))).mono (fun _ h => fin h)
  · exact (objBack_ends E line sp key v split a2 hn hm (fun h hm => hs h (splitKv_sub (Or.inr (by rw [hkv]; exact hm))))).mono (fun _ h => fin h)

end

end Dxs.Yaml
