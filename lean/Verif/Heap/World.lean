import Verif.Heap.CopyStep
import Verif.Heap.Force

/-!
# Several values at once

A program holds values in variables. `WInv h L`: the value in variable `i` is a proper tree made of the nodes `(L i).F`,
the caches it uses are `(L i).cs`, and different variables have neither nodes nor caches in common; the pool contains
caches that nobody uses, each once.
-/

namespace Dxs.Heap

/-- A value in use: its root, its nodes, its caches. -/
structure Live where
  p : Ptr
  F : List Ptr
  cs : List CId

/-- What is true of one value in use. -/
structure Held (h : Heap) (x : Live) : Prop where
  good : ∃ v, Good h (some x.p) v x.F
  ge : 5 ≤ x.p
  owner : ∀ q ∈ x.F, ∀ d, (h.mem q).owner = some d → d ∈ x.cs
  slots : ∀ q ∈ x.F, ∀ c < h.nextC, q ∈ (h.caches c).slots → c ∈ x.cs
  caches : ∀ c ∈ x.cs, c < h.nextC ∧ c ∉ h.pool
  root : ∀ c ∈ x.cs, (h.caches c).isroot = false

/-- Nothing in common. -/
structure Apart (x y : Live) : Prop where
  nodes : ∀ q ∈ x.F, q ∉ y.F
  caches : ∀ c ∈ x.cs, c ∉ y.cs

theorem Apart.symm {x y : Live} (a : Apart x y) : Apart y x := ⟨fun q hq h => a.nodes q h hq, fun c hc h => a.caches c h hc⟩

/-- What is true of all values in use. -/
structure WInv (h : Heap) (L : Nat → Option Live) : Prop where
  inv : Inv h
  own : Own h
  nodup : h.pool.Nodup
  empty : ∀ c ∈ h.pool, (h.caches c).len = 0
  held : ∀ i x, L i = some x → Held h x
  apart : ∀ i j x y, i ≠ j → L i = some x → L j = some y → Apart x y

/-- Assignment to a variable. -/
def assign {α : Type} (L : Nat → Option α) (i : Nat) (x : Option α) : Nat → Option α := fun j => if j = i then x else L j

theorem assign_same {α : Type} (L : Nat → Option α) (i : Nat) (x : Option α) : assign L i x i = x := by simp [assign]
theorem assign_ne {α : Type} (L : Nat → Option α) {i j : Nat} (x : Option α) (hj : j ≠ i) : assign L i x j = L j := by simp [assign, hj]

/-- The caches an operation may have created. -/
def newIds (h h' : Heap) : List CId := (List.range (h'.nextC - h.nextC)).map (h.nextC + ·)

theorem mem_newIds {h h' : Heap} {d : CId} : d ∈ newIds h h' ↔ h.nextC ≤ d ∧ d < h'.nextC := by
  unfold newIds; rw [mem_range_map]; omega

theorem not_root {h h' : Heap} {X : CId → Prop} (s : Step X h h') {c : CId} (hc : c < h'.nextC)
    (hr : c < h.nextC → (h.caches c).isroot = false) : (h'.caches c).isroot = false := by
  cases e : (h'.caches c).isroot with
  | false => rfl
  | true => obtain ⟨h1, h2⟩ := s.roots c hc e; rw [hr h1] at h2; cases h2

theorem Step.root {h h' : Heap} {X : CId → Prop} (s : Step X h h') {y : Live} (a : Held h y) : ∀ c ∈ y.cs, (h'.caches c).isroot = false :=
  fun c hc => not_root s (Nat.lt_of_lt_of_le (a.caches c hc).1 s.nextC) (fun _ => a.root c hc)

/-- A value whose nodes and caches were left alone is still held. -/
theorem Held.other {h h' : Heap} {y : Live} {F : List Ptr} {X : CId → Prop} (a : Held h y) (f : Frame h F h') (s : Step X h h')
    (hF : ∀ q ∈ y.F, q ∉ F) : Held h' y := by
  obtain ⟨v, g⟩ := a.good
  have hge := rep_ge g.rep
  refine ⟨⟨v, g.frame f hF⟩, a.ge, ?_, ?_, ?_, s.root a⟩
  · intro q hq d hd
    rw [f.mem q (hge q hq) (hF q hq) (g.live q hq)] at hd
    exact a.owner q hq d hd
  · intro q hq c hc hs
    rcases s.slots c hc q hs with ⟨h1, h2⟩ | h1
    · exact a.slots q hq c h1 h2
    · exact absurd (Or.inl h1) (g.live q hq)
  · intro c hc
    obtain ⟨h1, h2⟩ := a.caches c hc
    exact ⟨Nat.lt_of_lt_of_le h1 s.nextC, by rw [s.pool]; exact h2⟩

/-- Nodes that an operation took from the allocator belong to the caches it used. -/
theorem taken {h h' : Heap} (I : Inv h) (O : Own h) {X : CId → Prop} (s : Step X h h') {q : Ptr} (hq : Avail h q) (hq' : ¬Avail h' q) :
    (∀ d, (h'.mem q).owner = some d → X d ∨ h.nextC ≤ d) ∧ ∀ c < h'.nextC, q ∈ (h'.caches c).slots → X c ∨ h.nextC ≤ c := by
  have key : ∀ c < h.nextC, q ∈ (h.caches c).slots → X c := by
    intro c hc hs
    by_cases hX : X c
    · exact hX
    · exfalso
      rcases hq with h1 | ⟨d, hd, hm⟩
      · have := (I.range c hc q hs).2; omega
      · have e : d = c := by
          by_cases e : d = c
          · exact e
          · exact absurd hs (I.disj d hd c hc e q (List.mem_of_mem_drop hm))
        subst e
        exact hq' (Or.inr ⟨d, Nat.lt_of_lt_of_le hd s.nextC, by rw [s.caches d hd hX]; exact hm⟩)
  constructor
  · intro d hd
    rcases s.owner O q with e | e | ⟨d', e, h1⟩
    · rw [e] at hd
      rcases hq with h1 | ⟨c, hc, hm⟩
      · rw [O.fresh q h1] at hd; cases hd
      · rcases O.slot c hc q (List.mem_of_mem_drop hm) with h2 | h2
        · rw [h2] at hd; cases hd
        · rw [h2, Option.some.injEq] at hd
          rw [← hd]; exact Or.inl (key c hc (List.mem_of_mem_drop hm))
    · rw [e] at hd; cases hd
    · rw [e] at hd; cases hd; exact h1
  · intro c hc hs
    rcases Nat.lt_or_ge c h.nextC with hlt | hge
    · by_cases hX : X c
      · exact Or.inl hX
      · rw [s.caches c hlt hX] at hs; exact Or.inl (key c hlt hs)
    · exact Or.inr hge

/-- Nodes and caches that are handed over to a value. -/
structure Part (h : Heap) (y : Live) : Prop where
  live : ∀ q ∈ y.F, ¬Avail h q
  owner : ∀ q ∈ y.F, ∀ d, (h.mem q).owner = some d → d ∈ y.cs
  slots : ∀ q ∈ y.F, ∀ c < h.nextC, q ∈ (h.caches c).slots → c ∈ y.cs
  caches : ∀ c ∈ y.cs, c < h.nextC ∧ c ∉ h.pool
  root : ∀ c ∈ y.cs, (h.caches c).isroot = false

theorem Held.part {h : Heap} {y : Live} (a : Held h y) : Part h y :=
  ⟨fun q hq => by obtain ⟨v, g⟩ := a.good; exact g.live q hq, a.owner, a.slots, a.caches, a.root⟩

theorem Part.empty (h : Heap) : Part h ⟨0, [], []⟩ := ⟨by simp, by simp, by simp, by simp, by simp⟩

/-- An operation on the value in variable `i`, which is given the parts `z`. -/
theorem WInv.stepX {h h' : Heap} {L : Nat → Option Live} (W : WInv h L) {i : Nat} {x : Live} (hx : L i = some x) {z : Live} (hz : Part h z)
    (hzy : ∀ j y, j ≠ i → L j = some y → Apart z y) {v' : Val} {F' : List Ptr}
    (u : UpdX z.F h x.F h' (some x.p) v' F') (s : Step (fun d => d ∈ x.cs ∨ h.nextC ≤ d) h h') :
    WInv h' (assign L i (some ⟨x.p, F', x.cs ++ z.cs ++ newIds h h'⟩)) := by
  have hx' := W.held i x hx
  have hdF : ∀ j y, j ≠ i → L j = some y → ∀ q ∈ y.F, q ∉ x.F := fun j y hj hy => (W.apart j i y x hj hy hx).nodes
  have hself : Held h' ⟨x.p, F', x.cs ++ z.cs ++ newIds h h'⟩ := by
    refine ⟨⟨v', u.good⟩, hx'.ge, ?_, ?_, ?_, ?_⟩
    · intro q hq d hd
      have hlt := s.inv.owner q d hd
      simp only [List.mem_append, mem_newIds]
      have old : (∀ d, (h.mem q).owner = some d → d ∈ x.cs ∨ d ∈ z.cs) → (d ∈ x.cs ∨ d ∈ z.cs) ∨ h.nextC ≤ d ∧ d < h'.nextC := by
        intro h1
        rcases s.owner W.own q with e | e | ⟨d', e, h2⟩
        · rw [e] at hd; exact Or.inl (h1 d hd)
        · rw [e] at hd; cases hd
        · rw [e] at hd; cases hd
          rcases h2 with (h2 | h2) | h2
          · exact Or.inl (Or.inl h2)
          · exact Or.inr ⟨h2, hlt⟩
          · exact Or.inr ⟨h2, hlt⟩
      rcases u.sub q hq with h1 | h1 | h1
      · exact old (fun d hd => Or.inl (hx'.owner q h1 d hd))
      · exact old (fun d hd => Or.inr (hz.owner q h1 d hd))
      · rcases (taken W.inv W.own s h1 (u.good.live q hq)).1 d hd with (h2 | h2) | h2
        · exact Or.inl (Or.inl h2)
        · exact Or.inr ⟨h2, hlt⟩
        · exact Or.inr ⟨h2, hlt⟩
    · intro q hq c hc hs
      simp only [List.mem_append, mem_newIds]
      rcases u.sub q hq with h1 | h1 | h1
      · rcases s.slots c hc q hs with ⟨h2, h3⟩ | h2
        · exact Or.inl (Or.inl (hx'.slots q h1 c h2 h3))
        · obtain ⟨v, g⟩ := hx'.good
          exact absurd (Or.inl h2) (g.live q h1)
      · rcases s.slots c hc q hs with ⟨h2, h3⟩ | h2
        · exact Or.inl (Or.inr (hz.slots q h1 c h2 h3))
        · exact absurd (Or.inl h2) (hz.live q h1)
      · rcases (taken W.inv W.own s h1 (u.good.live q hq)).2 c hc hs with (h2 | h2) | h2
        · exact Or.inl (Or.inl h2)
        · exact Or.inr ⟨h2, hc⟩
        · exact Or.inr ⟨h2, hc⟩
    · intro c hc
      simp only [List.mem_append, mem_newIds] at hc
      rw [s.pool]
      rcases hc with (hc | hc) | hc
      · obtain ⟨h1, h2⟩ := hx'.caches c hc
        exact ⟨Nat.lt_of_lt_of_le h1 s.nextC, h2⟩
      · obtain ⟨h1, h2⟩ := hz.caches c hc
        exact ⟨Nat.lt_of_lt_of_le h1 s.nextC, h2⟩
      · exact ⟨hc.2, fun hp => by have := W.inv.pool c hp; omega⟩
    · intro c hc
      simp only [List.mem_append, mem_newIds] at hc
      rcases hc with (hc | hc) | hc
      · exact s.root hx' c hc
      · exact not_root s (Nat.lt_of_lt_of_le (hz.caches c hc).1 s.nextC) (fun _ => hz.root c hc)
      · exact not_root s hc.2 (fun h => by omega)
  have hap : ∀ j y, j ≠ i → L j = some y → Apart ⟨x.p, F', x.cs ++ z.cs ++ newIds h h'⟩ y := by
    intro j y hj hy
    obtain ⟨v, g⟩ := (W.held j y hy).good
    refine ⟨?_, ?_⟩
    · intro q hq hqy
      rcases u.sub q hq with h1 | h1 | h1
      · exact hdF j y hj hy q hqy h1
      · exact (hzy j y hj hy).nodes q h1 hqy
      · exact g.live q hqy h1
    · intro c hc hcy
      simp only [List.mem_append, mem_newIds] at hc
      rcases hc with (hc | hc) | hc
      · exact (W.apart j i y x hj hy hx).caches c hcy hc
      · exact (hzy j y hj hy).caches c hc hcy
      · have := ((W.held j y hy).caches c hcy).1; omega
  refine ⟨s.inv, s.own W.own, by rw [s.pool]; exact W.nodup, ?_, ?_, ?_⟩
  · intro c hc
    rw [s.pool] at hc
    have hlt := W.inv.pool c hc
    rw [s.caches c hlt]
    · exact W.empty c hc
    · rintro (h1 | h1)
      · exact (hx'.caches c h1).2 hc
      · omega
  · intro j y hy
    by_cases hj : j = i
    · subst hj; rw [assign_same] at hy; cases hy; exact hself
    · rw [assign_ne _ _ hj] at hy
      exact (W.held j y hy).other u.frame s (hdF j y hj hy)
  · intro j k y w hjk hy hw
    by_cases hj : j = i
    · subst hj
      rw [assign_same] at hy; cases hy
      rw [assign_ne _ _ (Ne.symm hjk)] at hw
      exact hap k w (Ne.symm hjk) hw
    · rw [assign_ne _ _ hj] at hy
      by_cases hk : k = i
      · subst hk
        rw [assign_same] at hw; cases hw
        exact (hap j y hj hy).symm
      · rw [assign_ne _ _ hk] at hw
        exact W.apart j k y w hjk hy hw

/-- An operation on the value in variable `i`. -/
theorem WInv.step {h h' : Heap} {L : Nat → Option Live} (W : WInv h L) {i : Nat} {x : Live} (hx : L i = some x) {v' : Val} {F' : List Ptr}
    (u : Upd h x.F h' (some x.p) v' F') (s : Step (fun d => d ∈ x.cs ∨ h.nextC ≤ d) h h') :
    WInv h' (assign L i (some ⟨x.p, F', x.cs ++ newIds h h'⟩)) := by
  have := W.stepX hx (Part.empty h) (fun _ _ _ _ => ⟨by simp, by simp⟩) u s
  simpa using this

/-- Forgetting a value. -/
theorem WInv.drop {h : Heap} {L : Nat → Option Live} (W : WInv h L) (i : Nat) : WInv h (assign L i none) := by
  refine ⟨W.inv, W.own, W.nodup, W.empty, ?_, ?_⟩
  · intro j y hy
    by_cases hj : j = i
    · subst hj; rw [assign_same] at hy; cases hy
    · rw [assign_ne _ _ hj] at hy; exact W.held j y hy
  · intro j k y z hjk hy hz
    by_cases hj : j = i
    · subst hj; rw [assign_same] at hy; cases hy
    · by_cases hk : k = i
      · subst hk; rw [assign_same] at hz; cases hz
      · rw [assign_ne _ _ hj] at hy; rw [assign_ne _ _ hk] at hz
        exact W.apart j k y z hjk hy hz

/-- An operation that changes no value in use and uses only caches that nobody has. -/
theorem WInv.pass {h h' : Heap} {L : Nat → Option Live} (W : WInv h L) {X : CId → Prop} (f : Frame h [] h') (s : Step X h h')
    (hX : ∀ c, c ∈ h.pool → ¬X c) : WInv h' L := by
  refine ⟨s.inv, s.own W.own, by rw [s.pool]; exact W.nodup, ?_, ?_, W.apart⟩
  · intro c hc
    rw [s.pool] at hc
    rw [s.caches c (W.inv.pool c hc) (hX c hc)]
    exact W.empty c hc
  · intro j y hy
    exact (W.held j y hy).other f s (by simp)

/-- A new value, built with the caches `cs` that nobody else uses. -/
theorem WInv.create {h h' : Heap} {L : Nat → Option Live} (W : WInv h L) (i : Nat) (cs : List CId)
    (hcs : ∀ c ∈ cs, c < h.nextC ∧ c ∉ h.pool ∧ ∀ j y, L j = some y → c ∉ y.cs) {p : Ptr} (h5 : 5 ≤ p) {v : Val} {F : List Ptr}
    (g : Good h' (some p) v F) (f : Frame h [] h') (hF : ∀ q ∈ F, Avail h q) (s : Step (fun d => d ∈ cs ∨ h.nextC ≤ d) h h')
    (hroot : ∀ c ∈ cs, (h'.caches c).isroot = false) :
    WInv h' (assign L i (some ⟨p, F, cs ++ newIds h h'⟩)) := by
  have hself : Held h' ⟨p, F, cs ++ newIds h h'⟩ := by
    refine ⟨⟨v, g⟩, h5, ?_, ?_, ?_, ?_⟩
    · intro q hq d hd
      have hlt := s.inv.owner q d hd
      simp only [List.mem_append, mem_newIds]
      rcases (taken W.inv W.own s (hF q hq) (g.live q hq)).1 d hd with (h2 | h2) | h2
      · exact Or.inl h2
      · exact Or.inr ⟨h2, hlt⟩
      · exact Or.inr ⟨h2, hlt⟩
    · intro q hq c hc hs
      simp only [List.mem_append, mem_newIds]
      rcases (taken W.inv W.own s (hF q hq) (g.live q hq)).2 c hc hs with (h2 | h2) | h2
      · exact Or.inl h2
      · exact Or.inr ⟨h2, hc⟩
      · exact Or.inr ⟨h2, hc⟩
    · intro c hc
      simp only [List.mem_append, mem_newIds] at hc
      rw [s.pool]
      rcases hc with hc | hc
      · obtain ⟨h1, h2, -⟩ := hcs c hc
        exact ⟨Nat.lt_of_lt_of_le h1 s.nextC, h2⟩
      · exact ⟨hc.2, fun hp => by have := W.inv.pool c hp; omega⟩
    · intro c hc
      simp only [List.mem_append, mem_newIds] at hc
      rcases hc with hc | hc
      · exact hroot c hc
      · exact not_root s hc.2 (fun h => by omega)
  have hap : ∀ j y, L j = some y → Apart ⟨p, F, cs ++ newIds h h'⟩ y := by
    intro j y hy
    obtain ⟨w, gw⟩ := (W.held j y hy).good
    refine ⟨fun q hq hqy => gw.live q hqy (hF q hq), ?_⟩
    intro c hc hcy
    simp only [List.mem_append, mem_newIds] at hc
    rcases hc with hc | hc
    · exact (hcs c hc).2.2 j y hy hcy
    · have := ((W.held j y hy).caches c hcy).1; omega
  refine ⟨s.inv, s.own W.own, by rw [s.pool]; exact W.nodup, ?_, ?_, ?_⟩
  · intro c hc
    rw [s.pool] at hc
    have hlt := W.inv.pool c hc
    rw [s.caches c hlt]
    · exact W.empty c hc
    · rintro (h1 | h1)
      · exact (hcs c h1).2.1 hc
      · omega
  · intro j y hy
    by_cases hj : j = i
    · subst hj; rw [assign_same] at hy; cases hy; exact hself
    · rw [assign_ne _ _ hj] at hy
      exact (W.held j y hy).other f s (by simp)
  · intro j k y z hjk hy hz
    by_cases hj : j = i
    · subst hj
      rw [assign_same] at hy; cases hy
      rw [assign_ne _ _ (Ne.symm hjk)] at hz
      exact hap k z hz
    · rw [assign_ne _ _ hj] at hy
      by_cases hk : k = i
      · subst hk
        rw [assign_same] at hz; cases hz
        exact (hap j y hy).symm
      · rw [assign_ne _ _ hk] at hz
        exact W.apart j k y z hjk hy hz

/-- Changing a cache that no value in use has, without changing its slots. -/
theorem WInv.setC {h : Heap} {L : Nat → Option Live} (W : WInv h L) {c : CId} (hc : c < h.nextC) (hu : ∀ j y, L j = some y → c ∉ y.cs)
    (x : Cache) (hs : x.slots = (h.caches c).slots) (hl : x.len ≤ x.slots.length) (h0 : x.len = 0 ∨ c ∉ h.pool) (hr : x.isroot = true → x.len = 0) :
    WInv (h.setC c x) L := by
  have hsl : ∀ d, ((h.setC c x).caches d).slots = (h.caches d).slots := by
    intro d; by_cases e : d = c
    · subst e; simp [Heap.setC, hs]
    · simp [Heap.setC, e]
  have hne : ∀ d, d ≠ c → (h.setC c x).caches d = h.caches d := by
    intro d e; simp [Heap.setC, e]
  have hcc : (h.setC c x).caches c = x := by simp [Heap.setC]
  have I' : Inv (h.setC c x) := by
    refine ⟨W.inv.next5, W.inv.const, ?_, ?_, ?_, ?_, ?_, W.inv.owner, W.inv.pool⟩
    · intro d hd; rw [hsl]; exact W.inv.capPos d hd
    · intro d hd
      by_cases e : d = c
      · subst e; rw [hcc]; exact hl
      · rw [hne d e]; exact W.inv.lenLe d hd
    · intro d hd; rw [hsl]; exact W.inv.nodup d hd
    · intro d hd; rw [hsl]; exact W.inv.range d hd
    · intro d hd e he hde; rw [hsl, hsl]; exact W.inv.disj d hd e he hde
  refine ⟨I', ⟨W.own.fresh, ?_, ?_, ?_⟩, W.nodup, ?_, ?_, W.apart⟩
  · intro d hd; rw [hsl]; exact W.own.slot d hd
  · intro d hd; rw [hsl]; exact W.own.tail d hd
  · intro d hd hroot
    by_cases e : d = c
    · subst e; rw [hcc] at hroot ⊢; exact hr hroot
    · rw [hne d e] at hroot ⊢; exact W.own.root d hd hroot
  · intro d hd
    by_cases e : d = c
    · subst e; rw [hcc]; exact h0.elim id (fun h => absurd hd h)
    · rw [hne d e]; exact W.empty d hd
  · intro j y hy
    have a := W.held j y hy
    obtain ⟨v, g⟩ := a.good
    refine ⟨⟨v, I', g.rep, g.nodup, ?_⟩, a.ge, a.owner, ?_, a.caches, fun d hd => by rw [hne d (fun e => hu j y hy (e ▸ hd))]; exact a.root d hd⟩
    · rintro q hq (h1 | ⟨d, hd, hm⟩)
      · exact g.live q hq (Or.inl h1)
      · by_cases e : d = c
        · subst e
          rw [hcc] at hm
          exact hu j y hy (a.slots q hq d hc (by rw [← hs]; exact List.mem_of_mem_drop hm))
        · rw [hne d e] at hm; exact g.live q hq (Or.inr ⟨d, hd, hm⟩)
    · intro q hq d hd hm
      rw [hsl] at hm; exact a.slots q hq d hd hm

/-- Changing the pool. -/
theorem WInv.setPool {h : Heap} {L : Nat → Option Live} (W : WInv h L) (P : List CId) (hnd : P.Nodup)
    (hP : ∀ c ∈ P, c < h.nextC ∧ (h.caches c).len = 0 ∧ ∀ j y, L j = some y → c ∉ y.cs) : WInv { h with pool := P } L := by
  have I' : Inv { h with pool := P } := ⟨W.inv.next5, W.inv.const, W.inv.capPos, W.inv.lenLe, W.inv.nodup, W.inv.range, W.inv.disj, W.inv.owner,
    fun c hc => (hP c hc).1⟩
  refine ⟨I', ⟨W.own.fresh, W.own.slot, W.own.tail, W.own.root⟩, hnd, fun c hc => (hP c hc).2.1, ?_, W.apart⟩
  intro j y hy
  have a := W.held j y hy
  obtain ⟨v, g⟩ := a.good
  exact ⟨⟨v, I', g.rep, g.nodup, g.live⟩, a.ge, a.owner, a.slots, fun c hc => ⟨(a.caches c hc).1, fun hp => (hP c hp).2.2 j y hy hc⟩, a.root⟩

/-- `getCache` hands out a cache that no value in use has. -/
theorem WInv.getCache {h : Heap} {L : Nat → Option Live} (W : WInv h L) (pick : Option Nat) :
    let r := Heap.getCache h pick
    WInv r.2 L ∧ r.1 < r.2.nextC ∧ r.1 ∉ r.2.pool ∧ (∀ j y, L j = some y → r.1 ∉ y.cs) := by
  unfold Heap.getCache
  cases hp : pick.bind (h.pool[·]?) with
  | none =>
    simp only
    obtain ⟨g, h1, h2, h3, h4, h5, h6, -⟩ := newCache_spec W.inv true 0 (by omega)
    obtain ⟨I1, O1, -⟩ := newCache_step (X := anyCache) W.inv 0 (by omega) true (by simp)
    rw [h1, h2]
    refine ⟨⟨I1, O1 W.own, by rw [g.pool]; exact W.nodup, ?_, ?_, W.apart⟩, by omega, ?_, ?_⟩
    · intro c hc
      rw [g.pool] at hc
      rw [h5 c (W.inv.pool c hc)]; exact W.empty c hc
    · intro j y hy
      have a := W.held j y hy
      obtain ⟨v, gg⟩ := a.good
      have hm : ∀ q ∈ y.F, (newCache h true 0).2.mem q = h.mem q := fun q hq => g.mem q (gg.live q hq)
      refine ⟨⟨v, gg.grow g⟩, a.ge, fun q hq d hd => a.owner q hq d (by rw [← hm q hq]; exact hd), ?_, ?_, ?_⟩
      · intro q hq c hc hs
        rw [h2] at hc
        rcases Nat.lt_or_ge c h.nextC with hlt | hge
        · rw [h5 c hlt] at hs; exact a.slots q hq c hlt hs
        · have : c = (newCache h true 0).1 := by rw [h1]; omega
          subst this
          rw [h4] at hs
          exact absurd (Or.inl (mem_range_map.1 hs).1) (gg.live q hq)
      · intro c hc
        have := a.caches c hc
        rw [g.pool, h2]; exact ⟨by omega, this.2⟩
      · intro c hc
        rw [h5 c (a.caches c hc).1]; exact a.root c hc
    · rw [g.pool]; intro hc; have := W.inv.pool _ hc; omega
    · intro j y hy hc
      have := ((W.held j y hy).caches _ hc).1; omega
  | some c =>
    simp only
    obtain ⟨i, rfl, hi⟩ := Option.bind_eq_some_iff.1 hp
    have hmem : c ∈ h.pool := List.mem_of_getElem? hi
    have hlt := W.inv.pool c hmem
    have hu : ∀ j y, L j = some y → c ∉ y.cs := fun j y hy hc => ((W.held j y hy).caches c hc).2 hmem
    have hnot : c ∉ h.pool.eraseIdx i := by
      intro hc
      obtain ⟨hi1, hi2⟩ := List.getElem?_eq_some_iff.1 hi
      rw [List.eraseIdx_eq_take_drop_succ] at hc
      have hnd := W.nodup
      rw [← List.take_append_drop i h.pool, List.drop_eq_getElem_cons hi1, hi2] at hnd
      simp only [List.nodup_append, List.nodup_cons] at hnd
      rcases List.mem_append.1 hc with h1 | h1
      · exact hnd.2.2 c h1 c (by simp) rfl
      · exact hnd.2.1.1 h1
    refine ⟨?_, hlt, hnot, hu⟩
    have W1 := W.setPool (h.pool.eraseIdx i) (W.nodup.sublist (List.eraseIdx_sublist ..))
      (fun d hd => ⟨W.inv.pool d (List.mem_of_mem_eraseIdx hd), W.empty d (List.mem_of_mem_eraseIdx hd),
        fun j y hy hc => ((W.held j y hy).caches d hc).2 (List.mem_of_mem_eraseIdx hd)⟩)
    have h0 : (h.caches c).len = 0 := W.empty c hmem
    refine W1.setC hlt hu _ rfl ?_ (Or.inl h0) (fun _ => h0)
    rw [h0]; exact Nat.zero_le _

/-- Writing a node that belongs to no value in use. -/
theorem WInv.setNode {h : Heap} {L : Nat → Option Live} (W : WInv h L) {p : Ptr} (h5 : 5 ≤ p) (hp : ∀ j y, L j = some y → p ∉ y.F) (n : Node)
    (ho : n.owner = (h.mem p).owner ∨ n.owner = none) : WInv (h.set p n) L := by
  have hne : ∀ q, q ≠ p → (h.set p n).mem q = h.mem q := fun q e => set_mem_ne _ _ e
  have key : ∀ q, ((h.set p n).mem q).owner = (h.mem q).owner ∨ ((h.set p n).mem q).owner = none := by
    intro q
    by_cases e : q = p
    · subst e; rw [set_mem_same]; exact ho
    · rw [hne q e]; exact Or.inl rfl
  have I' : Inv (h.set p n) := by
    refine W.inv.set p n (fun h => by omega) ?_
    intro c hc
    rcases ho with e | e
    · exact W.inv.owner p c (e ▸ hc)
    · rw [e] at hc; cases hc
  refine ⟨I', ⟨?_, ?_, ?_, W.own.root⟩, W.nodup, W.empty, ?_, W.apart⟩
  · intro q hq; exact (key q).elim (fun e => e.trans (W.own.fresh q hq)) id
  · intro c hc q hq; exact (key q).elim (fun e => by rw [e]; exact W.own.slot c hc q hq) Or.inl
  · intro c hc q hq; exact (key q).elim (fun e => e.trans (W.own.tail c hc q hq)) id
  · intro j y hy
    have a := W.held j y hy
    obtain ⟨v, g⟩ := a.good
    have hm : ∀ q ∈ y.F, (h.set p n).mem q = h.mem q := fun q hq => hne q (fun e => hp j y hy (e ▸ hq))
    refine ⟨⟨v, I', rep_frame g.rep ⟨hm, fun q hq => by rw [hne q (by omega)]⟩, g.nodup, g.live⟩, a.ge, ?_, a.slots, a.caches, a.root⟩
    intro q hq d hd
    rw [hm q hq] at hd; exact a.owner q hq d hd

/-- Taking a value into use. -/
theorem WInv.adopt {h : Heap} {L : Nat → Option Live} (W : WInv h L) (i : Nat) {x : Live} (hx : Held h x)
    (hap : ∀ j y, j ≠ i → L j = some y → Apart x y) : WInv h (assign L i (some x)) := by
  refine ⟨W.inv, W.own, W.nodup, W.empty, ?_, ?_⟩
  · intro j y hy
    by_cases hj : j = i
    · subst hj; rw [assign_same] at hy; cases hy; exact hx
    · rw [assign_ne _ _ hj] at hy; exact W.held j y hy
  · intro j k y z hjk hy hz
    by_cases hj : j = i
    · subst hj
      rw [assign_same] at hy; cases hy
      rw [assign_ne _ _ (Ne.symm hjk)] at hz
      exact hap k z (Ne.symm hjk) hz
    · rw [assign_ne _ _ hj] at hy
      by_cases hk : k = i
      · subst hk
        rw [assign_same] at hz; cases hz
        exact (hap j y hj hy).symm
      · rw [assign_ne _ _ hk] at hz
        exact W.apart j k y z hjk hy hz

theorem assign_assign {α : Type} (L : Nat → Option α) (i : Nat) (x y : Option α) : assign (assign L i x) i y = assign L i y := by
  funext j; simp only [assign]; split <;> rfl

theorem assign_some {α : Type} {L : Nat → Option α} {i j : Nat} {y : α} (h : assign L i none j = some y) : j ≠ i ∧ L j = some y := by
  by_cases hj : j = i
  · subst hj; rw [assign_same] at h; cases h
  · rw [assign_ne _ _ hj] at h; exact ⟨hj, h⟩

/-- What `Clear` leaves of a tree. -/
def clearVal : Val → Val
  | .obj _ _ => .obj false []
  | .arr _ => .arr []
  | .str _ => .str []
  | .raw _ => .raw []
  | .bin e _ => .bin e []
  | .exbin e _ => .exbin e []
  | v => v

theorem rep_clear {m m' : Ptr → Node} {v : Val} {p : Ptr} {F : List Ptr} (h5 : 5 ≤ p) (hr : Rep m v (some p) F) (hm : m' p = (m p).clear) :
    Rep m' (clearVal v) (some p) [p] := by
  have hd := rep_dt hr
  have hf : [p] = foot p := by simp [foot, Nat.not_lt.2 h5]
  have hv := view_ge (m := m') h5
  have hv0 := view_ge (m := m) h5
  cases v with
  | nil => exact absurd rfl (rep_ne_nil hr)
  | obj ku kvs => exact ⟨p, [], rfl, h5, rfl, by rw [hm]; simp [Node.clear, hd, Val.vt], by rw [hm]; simp [Node.clear, hd, Val.vt], by rw [hm]; simp [Node.clear, hd, Val.vt, RepM]⟩
  | arr xs => exact ⟨p, [], rfl, h5, rfl, by rw [hm]; simp [Node.clear, hd, Val.vt], by rw [hm]; simp [Node.clear, hd, Val.vt, RepL]⟩
  | _ =>
    obtain ⟨p', e, -, hl⟩ := hr
    cases e
    rw [hv0] at hl
    refine ⟨p, rfl, hf, ?_⟩
    rw [hv, hm]
    simp only [Val.vt] at hd
    simp_all [Node.clear, leafOf]

/-- `Clear` of a value in use: it keeps its type and loses its contents. -/
theorem WInv.clear {h : Heap} {L : Nat → Option Live} (W : WInv h L) {i : Nat} {x : Live} (hx : L i = some x) :
    WInv (Heap.clear h x.p) (assign L i (some ⟨x.p, [x.p], x.cs⟩)) ∧
    ∀ v, Rep h.mem v (some x.p) x.F → Rep (Heap.clear h x.p).mem (clearVal v) (some x.p) [x.p] := by
  have a := W.held i x hx
  obtain ⟨v, g⟩ := a.good
  have hpF := rep_mem g.rep a.ge
  have hmem : (Heap.clear h x.p).mem x.p = (h.mem x.p).clear := by
    unfold Heap.clear
    rw [upd_mem_same]
    cases (h.mem x.p).owner <;> rfl
  have hno : ∀ j y, assign L i none j = some y → x.p ∉ y.F := fun j y hy hq => by
    obtain ⟨hj, hy⟩ := assign_some hy
    exact (W.apart j i y x hj hy hx).nodes _ hq hpF
  have hun : ∀ c ∈ x.cs, ∀ j y, assign L i none j = some y → c ∉ y.cs := fun c hc j y hy hq => by
    obtain ⟨hj, hy⟩ := assign_some hy
    exact (W.apart j i y x hj hy hx).caches _ hq hc
  have W0 := W.drop i
  -- the memory after `Clear`, without the value
  have W1 : WInv (Heap.clear h x.p) (assign L i none) ∧ ¬Avail (Heap.clear h x.p) x.p ∧ (∀ d, ((Heap.clear h x.p).caches d).slots = (h.caches d).slots)
      ∧ (∀ d, ((Heap.clear h x.p).caches d).isroot = (h.caches d).isroot) ∧ (Heap.clear h x.p).nextC = h.nextC ∧ (Heap.clear h x.p).pool = h.pool := by
    unfold Heap.clear
    cases ho : (h.mem x.p).owner with
    | none =>
      exact ⟨W0.setNode a.ge hno _ (Or.inl (Node.clear_owner _)), g.live _ hpF, fun _ => rfl, fun _ => rfl, rfl, rfl⟩
    | some c =>
      have hc := a.owner _ hpF c ho
      obtain ⟨hlt, hcp⟩ := a.caches c hc
      have W2 := W0.setC hlt (hun c hc) { h.caches c with len := 1 } rfl (W.inv.capPos c hlt) (Or.inr hcp)
        (fun hr => by rw [show _ = (h.caches c).isroot from rfl, a.root c hc] at hr; cases hr)
      refine ⟨W2.setNode a.ge hno _ (Or.inl (Node.clear_owner _)), ?_, ?_, ?_, rfl, rfl⟩
      · rintro (h1 | ⟨d, hd, hm⟩)
        · exact g.live _ hpF (Or.inl h1)
        · by_cases e : d = c
          · subst e
            have := W.own.tail d hlt x.p (by simpa [cacheReset, Heap.setC, Heap.upd, Heap.set] using hm)
            rw [ho] at this; cases this
          · exact g.live _ hpF (Or.inr ⟨d, hd, by simpa [cacheReset, Heap.setC, Heap.upd, Heap.set, e] using hm⟩)
      · intro d
        by_cases e : d = c
        · subst e; simp [cacheReset, Heap.setC, Heap.upd, Heap.set]
        · simp [cacheReset, Heap.setC, Heap.upd, Heap.set, e]
      · intro d
        by_cases e : d = c
        · subst e; simp [cacheReset, Heap.setC, Heap.upd, Heap.set]
        · simp [cacheReset, Heap.setC, Heap.upd, Heap.set, e]
  obtain ⟨W1, hav, hsl, hrt, hnc, hpl⟩ := W1
  refine ⟨?_, fun v hr => rep_clear a.ge hr hmem⟩
  rw [← assign_assign L i none]
  refine W1.adopt i ⟨⟨clearVal v, W1.inv, rep_clear a.ge g.rep hmem, by simp, ?_⟩, a.ge, ?_, ?_, ?_, ?_⟩ ?_
  · intro q hq; simp at hq; subst hq; exact hav
  · intro q hq d hd
    simp at hq; subst hq
    rw [hmem, Node.clear_owner] at hd
    exact a.owner _ hpF d hd
  · intro q hq c hc hs
    simp at hq; subst hq
    rw [hsl] at hs; rw [hnc] at hc
    exact a.slots _ hpF c hc hs
  · intro c hc; rw [hnc, hpl]; exact a.caches c hc
  · intro c hc; rw [hrt]; exact a.root c hc
  · intro j y hj hy
    obtain ⟨-, hy⟩ := assign_some hy
    have ap := (W.apart i j x y (Ne.symm hj) hx hy)
    exact ⟨fun q hq => by simp at hq; subst hq; exact ap.nodes _ hpF, ap.caches⟩

/-- `FreeValue` of a value in use. -/
theorem WInv.free {h : Heap} {L : Nat → Option Live} (W : WInv h L) {i : Nat} {x : Live} (hx : L i = some x) :
    WInv (Heap.freeValue h (some x.p)) (assign L i none) := by
  obtain ⟨W1, -⟩ := W.clear hx
  have a1 := W1.held i _ (assign_same _ _ _)
  have hno : ∀ j y, assign L i none j = some y → x.p ∉ y.F := fun j y hy hq => by
    obtain ⟨hj, hy⟩ := assign_some hy
    exact (W1.apart j i y ⟨x.p, [x.p], x.cs⟩ hj (by rw [assign_ne _ _ hj]; exact hy) (assign_same _ _ _)).nodes _ hq (by simp)
  have hun : ∀ c ∈ x.cs, ∀ j y, assign L i none j = some y → c ∉ y.cs := fun c hc j y hy hq => by
    obtain ⟨hj, hy⟩ := assign_some hy
    exact (W1.apart j i y ⟨x.p, [x.p], x.cs⟩ hj (by rw [assign_ne _ _ hj]; exact hy) (assign_same _ _ _)).caches _ hq hc
  have W2 := (W1.drop i)
  rw [assign_assign] at W2
  have W3 := W2.setNode a1.ge hno { (Heap.clear h x.p).mem x.p with owner := none } (Or.inr rfl)
  unfold Heap.freeValue
  simp only
  cases ho : ((Heap.clear h x.p).mem x.p).owner with
  | none => exact W3
  | some c =>
    have hc := a1.owner x.p (by simp) c ho
    obtain ⟨hlt, hcp⟩ := a1.caches c hc
    have hrt := a1.root c hc
    simp only
    have W4 := W3.setC (c := c) hlt (hun c hc) { (Heap.clear h x.p).caches c with len := 0 } rfl (Nat.zero_le _) (Or.inl rfl) (fun _ => rfl)
    refine W4.setPool (c :: (Heap.clear h x.p).pool) (List.nodup_cons.2 ⟨hcp, W1.nodup⟩) ?_
    intro d hd
    rcases List.mem_cons.1 hd with rfl | hd
    · exact ⟨hlt, by simp [Heap.setC], hun d hc⟩
    · exact ⟨W4.inv.pool d hd, W4.empty d hd, fun j y hy hq => ((W4.held j y hy).caches d hq).2 hd⟩

end Dxs.Heap
