import Verif.Yaml.Young

/-!
# Fuel, and the copies of aliases
-/

namespace Dxs.Yaml

open Dxs.Heap

/-- `P` holds of every result; if `o`, there is no panic; if `b`, there is one result with enough fuel. -/
def Ends {α : Type} (b o : Prop) (F : Nat → Res α) (P : α → Prop) : Prop :=
  (∀ f x, F f = .ok x → P x) ∧ (o → ∀ f, F f ≠ .panic) ∧ (b → ∃ r, r ≠ .loop ∧ ∃ N, ∀ f, N ≤ f → F f = r)

theorem Ends.ok {α : Type} {b o : Prop} {P : α → Prop} {x : α} (h : P x) : Ends b o (fun _ => .ok x) P :=
  ⟨fun _ y hy => by cases hy; exact h, fun _ _ => by simp, fun _ => ⟨_, by simp, 0, fun _ _ => rfl⟩⟩

theorem Ends.err {α : Type} {b o : Prop} {P : α → Prop} {e : Err} : Ends b o (fun _ => (.err e : Res α)) P :=
  ⟨fun _ y hy => by simp at hy, fun _ _ => by simp, fun _ => ⟨_, by simp, 0, fun _ _ => rfl⟩⟩

theorem Ends.loop {α : Type} {b o : Prop} {P : α → Prop} (hb : ¬b) : Ends b o (fun _ => (.loop : Res α)) P :=
  ⟨fun _ y hy => by simp at hy, fun _ _ => by simp, fun h => absurd h hb⟩

theorem Ends.panic {α : Type} {b o : Prop} {P : α → Prop} (ho : ¬o) : Ends b o (fun _ => (.panic : Res α)) P :=
  ⟨fun _ y hy => by simp at hy, fun h => absurd h ho, fun _ => ⟨_, by simp, 0, fun _ _ => rfl⟩⟩

theorem Ends.mono {α : Type} {b o : Prop} {F : Nat → Res α} {P Q : α → Prop} (h : Ends b o F P) (hq : ∀ x, P x → Q x) : Ends b o F Q :=
  ⟨fun f x hx => hq x (h.1 f x hx), h.2⟩

theorem Ends.bind {α β : Type} {b o : Prop} {F : Nat → Res α} {G : Nat → α → Res β} {P : α → Prop} {Q : β → Prop} (h : Ends b o F P)
    (hg : ∀ x, P x → Ends b o (fun f => G f x) Q) : Ends b o (fun f => (F f).bind (G f)) Q := by
  obtain ⟨h1, h2, h3⟩ := h
  refine ⟨fun f y hy => ?_, fun ho f hy => ?_, fun hb => ?_⟩
  · obtain ⟨x, hx, hy⟩ := Res.bind_eq_ok.mp hy
    exact (hg x (h1 f x hx)).1 f y hy
  · dsimp only at hy
    cases hx : F f with
    | ok x => rw [hx] at hy; exact (hg x (h1 f x hx)).2.1 ho f hy
    | err e => rw [hx] at hy; cases hy
    | panic => exact h2 ho f hx
    | loop => rw [hx] at hy; cases hy
  · obtain ⟨r, hl, N, hN⟩ := h3 hb
    cases r with
    | ok x =>
      obtain ⟨r', kl, M, hM⟩ := (hg x (h1 N x (hN N (Nat.le_refl _)))).2.2 hb
      refine ⟨r', kl, max N M, fun f hf => ?_⟩
      dsimp only
      rw [hN f (by omega)]
      exact hM f (by omega)
    | err e => exact ⟨.err e, by simp, N, fun f hf => by dsimp only; rw [hN f hf]; rfl⟩
    | panic => exact ⟨.panic, by simp, N, fun f hf => by dsimp only; rw [hN f hf]; rfl⟩
    | loop => exact absurd rfl hl

theorem Ends.shift {α : Type} {b o : Prop} {F G : Nat → Res α} {P : α → Prop} (h0 : F 0 = .loop) (hs : ∀ f, F (f + 1) = G f) (h : Ends b o G P) : Ends b o F P := by
  obtain ⟨h1, h2, h3⟩ := h
  refine ⟨fun f x hx => ?_, fun ho f => ?_, fun hb => ?_⟩
  · cases f with
    | zero => rw [h0] at hx; cases hx
    | succ f => exact h1 f x (by rw [← hs]; exact hx)
  · cases f with
    | zero => rw [h0]; simp
    | succ f => rw [hs]; exact h2 ho f
  · obtain ⟨r, hl, N, hN⟩ := h3 hb
    refine ⟨r, hl, N + 1, fun f hf => ?_⟩
    cases f with
    | zero => omega
    | succ f => rw [hs]; exact hN f (by omega)

/-- No descent of length `n`. -/
def Ht (h : Heap) : Nat → Ptr → Prop
  | 0, _ => False
  | n + 1, p => ∀ r, KidOf h r p → Ht h n r

theorem Ht.succ {h : Heap} : ∀ {n : Nat} {p : Ptr}, Ht h n p → Ht h (n + 1) p
  | 0, _, hp => hp.elim
  | _ + 1, _, hp => fun r hr => Ht.succ (hp r hr)

theorem Ht.mono {h : Heap} {n m : Nat} {p : Ptr} (hp : Ht h n p) (hm : n ≤ m) : Ht h m p := by
  induction hm with
  | refl => exact hp
  | step _ ih => exact ih.succ

theorem ht_of_acc {h : Heap} {p : Ptr} (a : Acc (KidOf h) p) : ∃ n, Ht h n p := by
  induction a with
  | intro p _ ih =>
    have key : ∀ l : List (Option Ptr), (∀ b ∈ l, b ∈ Node.kids (h.mem p)) → ∃ n, ∀ r, some r ∈ l → Ht h n r := by
      intro l
      induction l with
      | nil => exact fun _ => ⟨0, by simp⟩
      | cons b l ihl =>
        intro hl
        obtain ⟨n, hn⟩ := ihl (fun b hb => hl b (by simp [hb]))
        cases b with
        | none => exact ⟨n, fun r hr => hn r (by simpa using hr)⟩
        | some q =>
          obtain ⟨m, hm⟩ := ih q (hl _ (by simp))
          refine ⟨max n m, fun r hr => ?_⟩
          simp only [List.mem_cons, Option.some.injEq] at hr
          rcases hr with rfl | hr
          · exact hm.mono (by omega)
          · exact (hn r hr).mono (by omega)
    obtain ⟨n, hn⟩ := key _ (fun _ h => h)
    exact ⟨n + 1, hn⟩

section
variable {Z : Ptr → Prop} {X : List Ptr} {h0 h : Heap} {S : Ptr → Prop}

/-- Heights do not change where the memory does not. -/
theorem Ht.same {h' : Heap} (y : Young Z X h0 S h) (hm : ∀ q, S q → h'.mem q = h.mem q) : ∀ {n : Nat} {p : Ptr}, S p → Ht h n p → Ht h' n p
  | 0, _, _, hp => hp.elim
  | n + 1, p, hS, hp => fun r hr => by
    unfold KidOf at hr
    rw [hm p hS] at hr
    exact Ht.same y hm (y.kid p hS hr) (hp r hr)

/-- A copy: new nodes, and old ones of the types that are not copied. -/
structure Cloned (Z : Ptr → Prop) (X : List Ptr) (h0 : Heap) (S : Ptr → Prop) (h : Heap) (S' : Ptr → Prop) (h' : Heap) : Prop extends Go Z X h0 S h S' h' where
  same : ∀ q, S q → h'.mem q = h.mem q
  /-- From the copy only the copy is reached. -/
  closed : ∀ r x, S' r → (¬S r ∨ 11 ≤ (h'.mem r).dt.ord) → KidOf h' x r → S' x ∧ (¬S x ∨ 11 ≤ (h'.mem x).dt.ord)

theorem Cloned.refl (y : Young Z X h0 S h) : Cloned Z X h0 S h S h where
  toGo := y.refl
  same _ _ := rfl
  closed r x hr h1 hx := by
    rcases h1 with h1 | h1
    · exact absurd hr h1
    · unfold KidOf at hx; rw [kids_const h1] at hx; simp at hx

/-- Nodes that belong to a copy. -/
def InCopy (S S' : Ptr → Prop) (h' : Heap) (q : Ptr) : Prop := S' q ∧ (¬S q ∨ 11 ≤ (h'.mem q).dt.ord)

/-- First one copy, then another. -/
theorem Cloned.trans {S1 S2 : Ptr → Prop} {h1 h2 : Heap} (a : Cloned Z X h0 S h S1 h1) (b : Cloned Z X h0 S1 h1 S2 h2) : Cloned Z X h0 S h S2 h2 where
  toGo := a.toGo.trans b.toGo
  same q hq := by rw [b.same q (a.sub q hq), a.same q hq]
  closed r x hr h3 hx := by
    by_cases h1r : S1 r
    · have e := b.same r h1r
      rw [e] at h3
      unfold KidOf at hx
      rw [e] at hx
      have := a.closed r x h1r h3 hx
      exact ⟨b.sub x this.1, by rw [b.same x this.1]; exact this.2⟩
    · have := b.closed r x hr (Or.inl h1r) hx
      exact ⟨this.1, this.2.imp (fun h h' => h (a.sub x h')) id⟩

/-- A new node `r` of the copy gets one more part. -/
theorem Cloned.attach {S1 S2 : Ptr → Prop} {h1 h2 : Heap} (a : Cloned Z X h0 S h S1 h1) (b : Cloned Z X h0 S1 h1 S2 h2) {r q : Ptr} (hr : S1 r) (hn : ¬S r)
    (ho : (h1.mem r).dt.ord < 11) (hq : InCopy S1 S2 h2 q) {f : Node → Node} (hw : ∀ n, (f n).owner = n.owner) (hd : ∀ n, (f n).dt = n.dt)
    (hk : ∀ x ∈ Node.kids (f (h2.mem r)), x ∈ Node.kids (h2.mem r) ∨ x = some q) : Cloned Z X h0 S h S2 (h2.upd r f) := by
  have c := a.trans b
  have er := b.same r hr
  have hp : ¬InCopy S1 S2 h2 r := by
    rintro ⟨-, h | h⟩
    · exact h hr
    · rw [er] at h; omega
  have hdt : ∀ x, ((h2.upd r f).mem x).dt = (h2.mem x).dt := by
    intro x
    by_cases e : x = r
    · subst e; rw [upd_mem_same, hd]
    · rw [upd_mem_ne _ _ e]
  refine ⟨c.toGo.trans (b.young.put (b.sub r hr) hq.1 (hw _) (Or.inl (hd _)) (InCopy S1 S2 h2) hq hp (fun z x hz hx => b.closed z x hz.1 hz.2 hx) hk), ?_, ?_⟩
  · intro x hx
    rw [upd_mem_ne _ _ (by rintro rfl; exact hn hx)]
    exact c.same x hx
  · intro z x hz h3 hx
    rw [hdt] at h3 ⊢
    unfold KidOf at hx
    by_cases e : z = r
    · subst e
      rw [upd_mem_same] at hx
      rcases hk _ hx with h4 | h4
      · exact c.closed z x hz h3 h4
      · cases h4
        exact ⟨hq.1, hq.2.imp (fun h h' => h (a.sub _ h')) id⟩
    · rw [upd_mem_ne _ _ e] at hx
      exact c.closed z x hz h3 hx

theorem Cloned.getValue (y : Young Z X h0 S h) {c : Option CId} (hc : ∀ d, c = some d → d < h.nextC) (t : VT) (ht : t ≠ .binary) :
    Cloned Z X h0 S h (more S (Heap.getValue h c t).1) (Heap.getValue h c t).2 ∧ ¬S (Heap.getValue h c t).1 ∧
      Blank ((Heap.getValue h c t).2.mem (Heap.getValue h c t).1) t := by
  have a := getValue_spec y.inv c t hc
  have g := y.alloc a ht
  generalize Heap.getValue h c t = r at a g ⊢
  obtain ⟨q, h1⟩ := r
  refine ⟨⟨g, fun x hx => a.mem x (y.live x hx), ?_⟩, fun h => y.live q h a.was, a.blank⟩
  rintro r x (hr | rfl) h3 hx
  · rcases h3 with h3 | h3
    · exact absurd hr h3
    · unfold KidOf at hx; rw [kids_const h3] at hx; simp at hx
  · unfold KidOf at hx; rw [kids_blank a.blank] at hx; simp at hx

/-- Writing into the new node without changing its parts. -/
theorem Cloned.fill {S1 : Ptr → Prop} {h1 : Heap} (a : Cloned Z X h0 S h S1 h1) {r : Ptr} (hr : S1 r) (hn : ¬S r) {f : Node → Node}
    (hw : ∀ n, (f n).owner = n.owner) (hd : ∀ n, (f n).dt = n.dt) (hk : ∀ n, Node.kids (f n) = Node.kids n) : Cloned Z X h0 S h S1 (h1.upd r f) := by
  have hdt : ∀ x, ((h1.upd r f).mem x).dt = (h1.mem x).dt ∧ Node.kids ((h1.upd r f).mem x) = Node.kids (h1.mem x) := by
    intro x
    by_cases e : x = r
    · subst e; rw [upd_mem_same, hd, hk]; exact ⟨rfl, rfl⟩
    · rw [upd_mem_ne _ _ e]; exact ⟨rfl, rfl⟩
  refine ⟨a.toGo.trans (a.young.upd hr f (hw _) (Or.inl (hd _)) (by rw [hk]; exact fun _ h => h)), ?_, ?_⟩
  · intro x hx
    rw [upd_mem_ne _ _ (by rintro rfl; exact hn hx)]
    exact a.same x hx
  · intro z x hz h3 hx
    unfold KidOf at hx
    rw [(hdt z).1] at h3
    rw [(hdt z).2] at hx
    rw [(hdt x).1]
    exact a.closed z x hz h3 hx

/-- The result of `clone`. -/
def CloneOk (Z : Ptr → Prop) (X : List Ptr) (h0 : Heap) (S : Ptr → Prop) (h : Heap) (x : Ptr × Heap) : Prop := ∃ S', Cloned Z X h0 S h S' x.2 ∧ InCopy S S' x.2 x.1

theorem cloneM_ends {b o : Prop} {c : Option CId} {n : Nat}
    (ih : ∀ {S : Ptr → Prop} {h : Heap} {p : Ptr}, Young Z X h0 S h → (∀ d, c = some d → d < h.nextC) → S p → Ht h n p → Ends b o (fun f => clone f h (some p) c) (CloneOk Z X h0 S h))
    (y : Young Z X h0 S h) (hc : ∀ d, c = some d → d < h.nextC) {r : Ptr} (hn : ¬S r) :
    ∀ (kvs : List (Bytes × Option Ptr)), (∀ kv ∈ kvs, (∃ q, kv.2 = some q ∧ S q ∧ Ht h n q) ∨ (kv.2 = none ∧ ¬o)) → ∀ {S1 : Ptr → Prop} {h1 : Heap}, Cloned Z X h0 S h S1 h1 → S1 r →
      (h1.mem r).dt = .object → Ends b o (fun f => cloneM (fun h q => clone f h q c) r h1 kvs) (fun h2 => ∃ S2, Cloned Z X h0 S h S2 h2 ∧ S2 r) := by
  intro kvs
  induction kvs with
  | nil => intro _ S1 h1 a hr hd; exact Ends.ok ⟨S1, a, hr⟩
  | cons kv kvs ihl =>
    intro hk S1 h1 a hr hd
    obtain ⟨q, hq, hS, hH⟩ | ⟨hq, ho⟩ := hk kv (by simp)
    rotate_left
    · simp only [cloneM, hq]
      refine Ends.bind (P := fun _ => False) (Ends.shift (G := fun _ => .panic) (by rfl) (fun f => by rw [clone]) (Ends.panic ho)) (fun _ h => h.elim)
    have h := ih a.young (a.young_lt hc) (a.sub q hS) (hH.same y a.same hS)
    simp only [cloneM, hq]
    refine Ends.bind h ?_
    rintro ⟨q', h2⟩ ⟨S2, b2, hq'⟩
    have er := b2.same r hr
    refine ihl (fun kv h => hk kv (by simp [h])) (a.attach b2 hr hn (by rw [hd]; decide) hq' (fun _ => rfl) (fun _ => rfl) ?_) (b2.sub r hr) (by rw [upd_mem_same]; simp only; rw [er, hd])
    intro x hx
    rw [kids_dt (by rw [er, hd])]
    rw [kids_dt (by simp only; rw [er, hd])] at hx
    simpa using hx

theorem cloneL_ends {b o : Prop} {c : Option CId} {n : Nat}
    (ih : ∀ {S : Ptr → Prop} {h : Heap} {p : Ptr}, Young Z X h0 S h → (∀ d, c = some d → d < h.nextC) → S p → Ht h n p → Ends b o (fun f => clone f h (some p) c) (CloneOk Z X h0 S h))
    (y : Young Z X h0 S h) (hc : ∀ d, c = some d → d < h.nextC) {r : Ptr} (hn : ¬S r) :
    ∀ (xs : List (Option Ptr)), (∀ b ∈ xs, (∃ q, b = some q ∧ S q ∧ Ht h n q) ∨ (b = none ∧ ¬o)) → ∀ {S1 : Ptr → Prop} {h1 : Heap}, Cloned Z X h0 S h S1 h1 → S1 r →
      (h1.mem r).dt = .array → Ends b o (fun f => cloneL (fun h q => clone f h q c) r h1 xs) (fun h2 => ∃ S2, Cloned Z X h0 S h S2 h2 ∧ S2 r) := by
  intro xs
  induction xs with
  | nil => intro _ S1 h1 a hr hd; exact Ends.ok ⟨S1, a, hr⟩
  | cons x xs ihl =>
    intro hk S1 h1 a hr hd
    obtain ⟨q, hq, hS, hH⟩ | ⟨hq, ho⟩ := hk x (by simp)
    rotate_left
    · simp only [cloneL, hq]
      refine Ends.bind (P := fun _ => False) (Ends.shift (G := fun _ => .panic) (by rfl) (fun f => by rw [clone]) (Ends.panic ho)) (fun _ h => h.elim)
    have h := ih a.young (a.young_lt hc) (a.sub q hS) (hH.same y a.same hS)
    simp only [cloneL, hq]
    refine Ends.bind h ?_
    rintro ⟨q', h2⟩ ⟨S2, b2, hq'⟩
    have er := b2.same r hr
    refine ihl (fun kv h => hk kv (by simp [h])) (a.attach b2 hr hn (by rw [hd]; decide) hq' (fun _ => rfl) (fun _ => rfl) ?_) (b2.sub r hr) (by rw [upd_mem_same]; simp only; rw [er, hd])
    intro x hx
    rw [kids_dt_arr (by rw [er, hd])]
    rw [kids_dt_arr (by simp only; rw [er, hd])] at hx
    simpa using hx

theorem clone_ends_ht {b o : Prop} {c : Option CId} (hz : o → ∀ q, ¬Z q) : ∀ (n : Nat) {S : Ptr → Prop} {h : Heap} {p : Ptr}, Young Z X h0 S h → (∀ d, c = some d → d < h.nextC) → S p → Ht h n p →
    Ends b o (fun f => clone f h (some p) c) (CloneOk Z X h0 S h)
  | 0, _, _, _, _, _, _, hp => hp.elim
  | n + 1, S, h, p, y, hc, hS, hp => by
    refine Ends.shift (by rfl) (fun f => by rw [clone]) ?_
    by_cases ho : 11 ≤ (h.mem p).dt.ord
    · simp only [ge_iff_le, if_pos ho]
      exact Ends.ok ⟨S, Cloned.refl y, hS, Or.inr ho⟩
    · simp only [ge_iff_le, if_neg ho]
      obtain ⟨g, hnS, hbl⟩ := Cloned.getValue y hc (h.mem p).dt (y.bin p hS)
      have hkid : ∀ b ∈ Node.kids (h.mem p), (∃ q, b = some q ∧ S q ∧ Ht h n q) ∨ (b = none ∧ ¬o) := by
        intro b hb
        obtain ⟨q, rfl, hq⟩ | ⟨rfl, hZ⟩ := y.kids p hS b hb
        · exact Or.inl ⟨q, rfl, hq, hp q hb⟩
        · exact Or.inr ⟨rfl, fun h => hz h p hZ⟩
      generalize hgv : Heap.getValue h c (h.mem p).dt = gv at g hnS hbl ⊢
      obtain ⟨r, h1⟩ := gv
      simp only at g hnS hbl ⊢
      have e1 := g.same p hS
      have done : ∀ {h2 : Heap}, Cloned Z X h0 S h (more S r) h2 → CloneOk Z X h0 S h (r, h2) := fun c => ⟨_, c, Or.inr rfl, Or.inl hnS⟩
      have hrd := hbl.dt
      rw [e1]
      cases hdt : (h.mem p).dt <;> simp only
      case object =>
        have h2 := g.fill (f := fun m => { m with ku := (h.mem p).ku }) (Or.inr rfl) hnS (fun _ => rfl) (fun _ => rfl) (fun n => by simp [Node.kids])
        refine Ends.bind (cloneM_ends (clone_ends_ht hz n) y hc hnS (h.mem p).kvs (fun kv hkv => hkid kv.2 (by rw [kids_dt hdt]; exact List.mem_map_of_mem hkv)) h2 (Or.inr rfl)
          (by rw [upd_mem_same]; simp only; rw [hrd, hdt])) ?_
        rintro h3 ⟨S3, c3, hr3⟩
        exact Ends.ok ⟨S3, c3, hr3, Or.inl hnS⟩
      case array =>
        refine Ends.bind (cloneL_ends (clone_ends_ht hz n) y hc hnS (h.mem p).arr (fun x hx => hkid x (by rw [kids_dt_arr hdt]; exact hx)) g (Or.inr rfl)
          (by rw [hrd, hdt])) ?_
        rintro h3 ⟨S3, c3, hr3⟩
        exact Ends.ok ⟨S3, c3, hr3, Or.inl hnS⟩
      all_goals
        first
        | exact Ends.ok (done g)
        | exact Ends.ok (done (g.fill (Or.inr rfl) hnS (fun _ => rfl) (fun _ => rfl) (fun n => by simp [Node.kids])))

/-- Copying always ends. -/
theorem clone_ends {b o : Prop} {c : Option CId} {p : Ptr} (y : Young Z X h0 S h) (hc : ∀ d, c = some d → d < h.nextC) (hS : S p) (hz : o → ∀ q, ¬Z q) :
    Ends b o (fun f => clone f h (some p) c) (CloneOk Z X h0 S h) := by
  obtain ⟨n, hn⟩ := ht_of_acc (y.acc p hS)
  exact clone_ends_ht hz n y hc hS hn

/-- The result of an operation on the parser's nodes. -/
def GoOk (Z : Ptr → Prop) (X : List Ptr) (h0 : Heap) (S : Ptr → Prop) (h : Heap) (h' : Heap) : Prop := ∃ S', Go Z X h0 S h S' h'

/-- One round of `addM`: a slot, the copy, and the copy into the slot. `t` may be part of what is copied, then there is a panic. -/
theorem slot_ends {b o : Prop} {c : Option CId} {t u : Ptr} (ho : ¬o) (y : Young Full X h0 S h) (hc : ∀ d, c = some d → d < h.nextC) (hS : S t) (hu : S u)
    (hd : (h.mem u).dt = .object) {kv : Bytes × Option Ptr} (hkv : kv ∈ (h.mem u).kvs) :
    Ends b o (fun f => (clone f (h.upd t (fun m => { m with kvs := m.kvs ++ [(kv.1, none)] })) kv.2 c).bind
        (fun x => .ok (x.2.upd t (fun m => { m with kvs := m.kvs.modify (h.mem t).kvs.length (fun z => (z.1, some x.1)) }))))
      (fun h3 => ∃ S3, Go Full X h0 S h S3 h3 ∧ (u ≠ t → h3.mem u = h.mem u) ∧ (h3.mem u).dt = .object) := by
  obtain ⟨q, hq, hqS⟩ := y.isSome u hu kv.2 (by rw [kids_dt hd]; exact List.mem_map_of_mem hkv)
  have gs : Go (· = t) X h0 S h S (h.upd t (fun m => { m with kvs := m.kvs ++ [(kv.1, none)] })) := by
    refine y.weaken.write0 hS rfl (Or.inl rfl) (fun x hx => ?_)
    by_cases hd : (h.mem t).dt = .object
    · rw [kids_dt hd]
      rw [kids_dt (by exact hd)] at hx
      simpa using hx
    · left
      simp only [Node.kids] at hx ⊢
      split at hx <;> simp_all
  rw [hq]
  refine Ends.bind (clone_ends gs.young (gs.young_lt hc) hqS (fun h => absurd h ho)) ?_
  rintro ⟨q', h2⟩ ⟨S2, b2, hq'⟩
  have et : h2.mem t = { h.mem t with kvs := (h.mem t).kvs ++ [(kv.1, none)] } := by rw [b2.same t hS, upd_mem_same]
  have edt : (h2.mem t).dt = (h.mem t).dt := by rw [et]
  have ekv : ((h2.mem t).kvs.modify (h.mem t).kvs.length (fun z => (z.1, some q'))) = (h.mem t).kvs ++ [(kv.1, some q')] := by
    rw [et, List.modify_eq_take_drop]; simp
  have g2 : Go (· = t) X h0 S2 h2 S2 (h2.upd t (fun m => { m with kvs := m.kvs.modify (h.mem t).kvs.length (fun z => (z.1, some q')) })) := by
    by_cases hd : (h.mem t).dt = .object
    · refine b2.young.put (b2.sub t hS) hq'.1 rfl (Or.inl rfl) (InCopy S S2 h2) hq' ?_ (fun z x hz hx => b2.closed z x hz.1 hz.2 hx) ?_
      · rintro ⟨-, h | h⟩
        · exact h hS
        · rw [edt, hd] at h; exact absurd h (by decide)
      · intro x hx
        rw [kids_dt (by rw [edt, hd])]
        rw [kids_dt (by simp only; rw [edt, hd])] at hx
        simp only [ekv] at hx
        rw [et]
        simp only [List.map_append, List.map_cons, List.map_nil, List.mem_append, List.mem_singleton] at hx ⊢
        rcases hx with hx | hx
        · exact Or.inl (Or.inl hx)
        · exact Or.inr hx
    · refine b2.young.upd (b2.sub t hS) _ rfl (Or.inl rfl) ?_
      intro x hx
      rw [← edt] at hd
      simp only [Node.kids] at hx ⊢
      split at hx <;> simp_all
  have g3 := gs.trans (b2.toGo.trans g2)
  refine Ends.ok ⟨S2, ⟨g3.young.strong ?_, g3.sub, g3.nextC⟩, fun hne => ?_, ?_⟩
  · rintro r rfl hr
    rw [upd_mem_same] at hr
    by_cases hd : (h.mem r).dt = .object
    · rw [kids_dt (by simp only; rw [edt, hd])] at hr
      simp only [ekv, List.map_append, List.map_cons, List.map_nil, List.mem_append, List.mem_singleton, reduceCtorEq, or_false] at hr
      obtain ⟨x, hx, -⟩ := y.isSome r hS none (by rw [kids_dt hd]; exact hr)
      cases hx
    · have : none ∈ Node.kids (h.mem r) := by
        rw [et] at hr
        simp only [Node.kids] at hr ⊢
        split at hr <;> simp_all
      obtain ⟨x, hx, -⟩ := y.isSome r hS none this
      cases hx
  · rw [upd_mem_ne _ _ hne, b2.same u hu, upd_mem_ne _ _ hne]
  · by_cases e : u = t
    · subst e; rw [upd_mem_same]; simp only; rw [edt, hd]
    · rw [upd_mem_ne _ _ e, b2.same u hu, upd_mem_ne _ _ e, hd]

theorem into_ok {c : Option CId} {t u : Ptr} (f : Nat) : ∀ (n i : Nat) {S : Ptr → Prop} {h h' : Heap}, Young Full X h0 S h → (∀ d, c = some d → d < h.nextC) → S t → S u →
    (h.mem u).dt = .object → addM (fun h q => clone f h q c) t u n i h = .ok h' → GoOk Full X h0 S h h'
  | 0, _, _, _, _, _, _, _, _, _, e => by cases e
  | n + 1, i, S, h, h', y, hc, hS, hu, hd, e => by
    rw [addM] at e
    cases hk : (h.mem u).kvs[i]? with
    | none => rw [hk] at e; cases e; exact ⟨S, y.refl⟩
    | some kv =>
      rw [hk] at e
      simp only at e
      obtain ⟨⟨q, h2⟩, h1, h3⟩ := Res.bind_eq_ok.mp e
      have := (slot_ends (b := False) (o := False) nofun y hc hS hu hd (List.mem_of_getElem? hk)).1 f _ (by dsimp only; rw [h1]; rfl)
      obtain ⟨S3, g, -, hd'⟩ := this
      obtain ⟨S4, g4⟩ := into_ok f n (i + 1) g.young (g.young_lt hc) (g.sub t hS) (g.sub u hu) hd' h3
      exact ⟨S4, g.trans g4⟩

/-- Copies are appended to the members of `t`. -/
theorem into_ends {b o : Prop} {c : Option CId} {t u : Ptr} (ho : ¬o) : ∀ (m i : Nat) {S : Ptr → Prop} {h : Heap}, Young Full X h0 S h →
    (∀ d, c = some d → d < h.nextC) → S t → S u → (h.mem u).dt = .object → (h.mem u).kvs.length ≤ i + m →
    (b → u ≠ t ∨ (h.mem u).kvs.length ≤ i) → Ends b o (fun f => addM (fun h q => clone f h q c) t u (m + f + 1) i h) (GoOk Full X h0 S h) := by
  intro m
  induction m with
  | zero =>
    intro i S h y _ _ _ _ hl _
    have : ∀ f, addM (fun h q => clone f h q c) t u (0 + f + 1) i h = .ok h := by
      intro f
      rw [addM, List.getElem?_eq_none (by omega)]
    simp only [this]
    exact Ends.ok ⟨S, y.refl⟩
  | succ m ih =>
    intro i S h y hc hS hu hd hl hb
    by_cases hB : ¬b
    · exact ⟨fun f x hx => into_ok f _ i y hc hS hu hd hx, fun h => absurd h ho, fun h => absurd h hB⟩
    cases hk : (h.mem u).kvs[i]? with
    | none =>
      have : ∀ f, addM (fun h q => clone f h q c) t u (m + 1 + f + 1) i h = .ok h := by
        intro f
        rw [addM, hk]
      simp only [this]
      exact Ends.ok ⟨S, y.refl⟩
    | some kv =>
      have : ∀ f, addM (fun h q => clone f h q c) t u (m + 1 + f + 1) i h =
          ((clone f (h.upd t (fun m => { m with kvs := m.kvs ++ [(kv.1, none)] })) kv.2 c).bind
            (fun x => .ok (x.2.upd t (fun m => { m with kvs := m.kvs.modify (h.mem t).kvs.length (fun z => (z.1, some x.1)) })))).bind
            (fun h3 => addM (fun h q => clone f h q c) t u (m + f + 1) (i + 1) h3) := by
        intro f
        rw [addM, hk, Nat.add_right_comm]
        simp only
        show Res.bind _ _ = _
        generalize clone f _ _ _ = r
        cases r <;> rfl
      simp only [this]
      refine Ends.bind (slot_ends ho y hc hS hu hd (List.mem_of_getElem? hk)) ?_
      have hne : u ≠ t := by
        refine (hb (Classical.not_not.mp hB)).elim id (fun h => ?_)
        rw [List.getElem?_eq_none h] at hk; cases hk
      rintro h3 ⟨S3, g, hsame, hd3⟩
      refine (ih (i + 1) g.young (g.young_lt hc) (g.sub t hS) (g.sub u hu) hd3 (by rw [hsame hne]; omega) (fun _ => Or.inl hne)).mono ?_
      rintro h4 ⟨S4, g4⟩
      exact ⟨S4, g.trans g4⟩

/-- One round of `addL`. -/
theorem item_ends {b o : Prop} {c : Option CId} {t u : Ptr} (y : Young Full X h0 S h) (hc : ∀ d, c = some d → d < h.nextC) (hS : S t) (hu : S u)
    (hd : (h.mem u).dt = .array) {x : Option Ptr} (hx : x ∈ (h.mem u).arr) :
    Ends b o (fun f => (clone f h x c).bind (fun z => .ok (z.2.upd t (fun m => { m with arr := m.arr ++ [some z.1] }))))
      (fun h3 => ∃ S3, Go Full X h0 S h S3 h3 ∧ (u ≠ t → h3.mem u = h.mem u) ∧ (h3.mem u).dt = .array) := by
  obtain ⟨q, hq, hqS⟩ := y.isSome u hu x (by rw [kids_dt_arr hd]; exact hx)
  rw [hq]
  refine Ends.bind (clone_ends y hc hqS (fun _ _ => id)) ?_
  rintro ⟨q', h2⟩ ⟨S2, b2, hq'⟩
  have er := b2.same t hS
  have g2 : Go Full X h0 S2 h2 S2 (h2.upd t (fun n => { n with arr := n.arr ++ [some q'] })) := by
    by_cases hd : (h2.mem t).dt = .array
    · refine b2.young.put (b2.sub t hS) hq'.1 rfl (Or.inl rfl) (InCopy S S2 h2) hq' ?_ (fun z x hz hx => b2.closed z x hz.1 hz.2 hx) ?_
      · rintro ⟨-, h | h⟩
        · exact h hS
        · rw [hd] at h; exact absurd h (by decide)
      · intro x hx
        rw [kids_dt_arr hd]
        rw [kids_dt_arr (by exact hd)] at hx
        simpa using hx
    · refine b2.young.upd (b2.sub t hS) _ rfl (Or.inl rfl) ?_
      intro x hx
      simp only [Node.kids] at hx ⊢
      split at hx <;> simp_all
  refine Ends.ok ⟨S2, b2.toGo.trans g2, fun hne => ?_, ?_⟩
  · rw [upd_mem_ne _ _ hne, b2.same u hu]
  · by_cases e : u = t
    · subst e; rw [upd_mem_same]; simp only; rw [er, hd]
    · rw [upd_mem_ne _ _ e, b2.same u hu, hd]

theorem intoL_ok {c : Option CId} {t u : Ptr} (f : Nat) : ∀ (n i : Nat) {S : Ptr → Prop} {h h' : Heap}, Young Full X h0 S h → (∀ d, c = some d → d < h.nextC) → S t → S u →
    (h.mem u).dt = .array → addL (fun h q => clone f h q c) t u n i h = .ok h' → GoOk Full X h0 S h h'
  | 0, _, _, _, _, _, _, _, _, _, e => by cases e
  | n + 1, i, S, h, h', y, hc, hS, hu, hd, e => by
    rw [addL] at e
    cases hk : (h.mem u).arr[i]? with
    | none => rw [hk] at e; cases e; exact ⟨S, y.refl⟩
    | some x =>
      rw [hk] at e
      simp only at e
      obtain ⟨⟨q, h2⟩, h1, h3⟩ := Res.bind_eq_ok.mp e
      obtain ⟨S3, g, -, hd'⟩ := (item_ends (b := False) (o := False) y hc hS hu hd (List.mem_of_getElem? hk)).1 f _ (by dsimp only; rw [h1]; rfl)
      obtain ⟨S4, g4⟩ := intoL_ok f n (i + 1) g.young (g.young_lt hc) (g.sub t hS) (g.sub u hu) hd' h3
      exact ⟨S4, g.trans g4⟩

/-- Copies are appended to the elements of `t`. -/
theorem intoL_ends {b o : Prop} {c : Option CId} {t u : Ptr} (ho : ¬o) : ∀ (m i : Nat) {S : Ptr → Prop} {h : Heap}, Young Full X h0 S h →
    (∀ d, c = some d → d < h.nextC) → S t → S u → (h.mem u).dt = .array → (h.mem u).arr.length ≤ i + m →
    (b → u ≠ t ∨ (h.mem u).arr.length ≤ i) → Ends b o (fun f => addL (fun h q => clone f h q c) t u (m + f + 1) i h) (GoOk Full X h0 S h) := by
  intro m
  induction m with
  | zero =>
    intro i S h y _ _ _ _ hl _
    have : ∀ f, addL (fun h q => clone f h q c) t u (0 + f + 1) i h = .ok h := by
      intro f
      rw [addL, List.getElem?_eq_none (by omega)]
    simp only [this]
    exact Ends.ok ⟨S, y.refl⟩
  | succ m ih =>
    intro i S h y hc hS hu hd hl hb
    by_cases hB : ¬b
    · exact ⟨fun f x hx => intoL_ok f _ i y hc hS hu hd hx, fun h => absurd h ho, fun h => absurd h hB⟩
    cases hk : (h.mem u).arr[i]? with
    | none =>
      have : ∀ f, addL (fun h q => clone f h q c) t u (m + 1 + f + 1) i h = .ok h := by
        intro f
        rw [addL, hk]
      simp only [this]
      exact Ends.ok ⟨S, y.refl⟩
    | some x =>
      have : ∀ f, addL (fun h q => clone f h q c) t u (m + 1 + f + 1) i h =
          ((clone f h x c).bind (fun z => .ok (z.2.upd t (fun m => { m with arr := m.arr ++ [some z.1] })))).bind
            (fun h3 => addL (fun h q => clone f h q c) t u (m + f + 1) (i + 1) h3) := by
        intro f
        rw [addL, hk, Nat.add_right_comm]
        simp only
        show Res.bind _ _ = _
        generalize clone f _ _ _ = r
        cases r <;> rfl
      simp only [this]
      refine Ends.bind (item_ends y hc hS hu hd (List.mem_of_getElem? hk)) ?_
      have hne : u ≠ t := by
        refine (hb (Classical.not_not.mp hB)).elim id (fun h => ?_)
        rw [List.getElem?_eq_none h] at hk; cases hk
      rintro h3 ⟨S3, g, hsame, hd3⟩
      refine (ih (i + 1) g.young (g.young_lt hc) (g.sub t hS) (g.sub u hu) hd3 (by rw [hsame hne]; omega) (fun _ => Or.inl hne)).mono ?_
      rintro h4 ⟨S4, g4⟩
      exact ⟨S4, g.trans g4⟩

theorem copyFrom_ends {b o : Prop} {c : Option CId} {t u : Ptr} (ho : ¬o) (y : Young Full X h0 S h) (hc : ∀ d, c = some d → d < h.nextC) (ht : S t) (hu : S u) :
    Ends b o (fun f => copyFrom f h t (some u) c) (GoOk Full X h0 S h) := by
  unfold copyFrom
  dsimp only
  have g := y.reset ht (h.mem u).dt (y.bin u hu)
  have hbl : u = t → ((Heap.reset h t (h.mem u).dt).mem u).kvs = [] ∧ ((Heap.reset h t (h.mem u).dt).mem u).arr = [] := by
    rintro rfl
    rw [reset_mem (y.ge u hu)]
    exact ⟨(Blank.reset _ _).kvs, (Blank.reset _ _).arr⟩
  generalize Heap.reset h t (h.mem u).dt = h1 at g hbl ⊢
  have y1 := g.young
  have hown : ∀ d, (h1.mem t).owner = some d → d < h1.nextC := fun d hd => y1.inv.owner t d hd
  have hor : ∀ d, c.or (h1.mem t).owner = some d → d < h1.nextC := by
    intro d hd
    cases c with
    | none => exact hown d (by simpa using hd)
    | some e => simp at hd; subst hd; exact g.young_lt hc e rfl
  have fin : ∀ {h2 : Heap}, GoOk Full X h0 S h1 h2 → GoOk Full X h0 S h h2 := fun ⟨S2, g2⟩ => ⟨S2, g.trans g2⟩
  have leaf : ∀ {F : Node → Node}, (F (h1.mem t)).owner = (h1.mem t).owner → (F (h1.mem t)).dt = (h1.mem t).dt → Node.kids (F (h1.mem t)) = Node.kids (h1.mem t) → GoOk Full X h0 S h (h1.upd t F) :=
    fun ho hd hk => fin ⟨S, y1.upd ht _ ho (Or.inl hd) (by rw [hk]; exact fun _ h => h)⟩
  cases hd : (h1.mem u).dt <;> simp only
  case object =>
    have g2 := y1.upd ht (fun m => { m with ku := (h1.mem u).ku }) rfl (Or.inl rfl) (fun b hb => by simpa [Node.kids] using hb)
    have e2 : ((h1.upd t (fun m => { m with ku := (h1.mem u).ku })).mem u).kvs = (h1.mem u).kvs ∧
        ((h1.upd t (fun m => { m with ku := (h1.mem u).ku })).mem u).dt = (h1.mem u).dt := by
      by_cases e : u = t
      · subst e; rw [upd_mem_same]; exact ⟨rfl, rfl⟩
      · rw [upd_mem_ne _ _ e]; exact ⟨rfl, rfl⟩
    refine (into_ends ho _ 0 g2.young (g2.young_lt hor) ht hu (by rw [e2.2, hd]) (by rw [e2.1]; omega) (fun _ => ?_)).mono ?_
    · by_cases e : u = t
      · right; rw [e2.1, (hbl e).1]; simp
      · exact Or.inl e
    rintro h3 ⟨S3, g3⟩
    exact ⟨S3, g.trans (g2.trans g3)⟩
  case array =>
    refine (intoL_ends ho _ 0 y1 hown ht hu hd (by omega) (fun _ => ?_)).mono (fun _ => fin)
    by_cases e : u = t
    · right; rw [(hbl e).2]; simp
    · exact Or.inl e
  case string => exact Ends.ok (leaf rfl rfl (by simp [Node.kids]))
  case rawString => exact Ends.ok (leaf rfl rfl (by simp [Node.kids]))
  all_goals
    split
    · exact Ends.ok (leaf rfl rfl (by simp [Node.kids]))
    · exact Ends.ok (fin ⟨S, y1.refl⟩)

/-- Only a value merged into itself does not end. -/
theorem addFrom_ends {b o : Prop} {c : Option CId} {t u : Ptr} (ho : ¬o) (y : Young Full X h0 S h) (hc : ∀ d, c = some d → d < h.nextC) (ht : S t) (hu : S u)
    (hd : (h.mem u).dt = .object) (hb : b → u ≠ t) : Ends b o (fun f => addFrom f h t (some u) c) (GoOk Full X h0 S h) := by
  unfold addFrom
  simp only [hd]
  have hor : ∀ d, c.or (h.mem t).owner = some d → d < h.nextC := by
    intro d hd
    cases c with
    | none => exact y.inv.owner t d (by simpa using hd)
    | some e => simp at hd; subst hd; exact hc e rfl
  have g2 := y.upd ht (fun m => { m with ku := (h.mem u).ku }) rfl (Or.inl rfl) (fun b hb => by simpa [Node.kids] using hb)
  have e2 : ((h.upd t (fun m => { m with ku := (h.mem u).ku })).mem u).kvs = (h.mem u).kvs ∧
      ((h.upd t (fun m => { m with ku := (h.mem u).ku })).mem u).dt = (h.mem u).dt := by
    by_cases e : u = t
    · subst e; rw [upd_mem_same]; exact ⟨rfl, rfl⟩
    · rw [upd_mem_ne _ _ e]; exact ⟨rfl, rfl⟩
  refine (into_ends ho _ 0 g2.young (g2.young_lt hor) ht hu (by rw [e2.2, hd]) (by rw [e2.1]; omega) (fun h => Or.inl (hb h))).mono ?_
  rintro h3 ⟨S3, g3⟩
  exact ⟨S3, g2.trans g3⟩

end

end Dxs.Yaml
