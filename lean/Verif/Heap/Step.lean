import Verif.Heap.Alloc

/-!
# What an operation can do to the caches

`Step X h h'`: the constants keep their types, the pool is untouched, and of the existing caches only those in `X` are
used. It holds for every operation on any pointer (also constants and pointers to freed nodes).
-/

namespace Dxs.Heap

/-- Which nodes can have an owner: in a cache only the first one, and only the cache itself. -/
structure Own (h : Heap) : Prop where
  fresh : ∀ q, h.next ≤ q → (h.mem q).owner = none
  slot : ∀ c < h.nextC, ∀ q ∈ (h.caches c).slots, (h.mem q).owner = none ∨ (h.mem q).owner = some c
  tail : ∀ c < h.nextC, ∀ q ∈ (h.caches c).slots.drop 1, (h.mem q).owner = none
  root : ∀ c < h.nextC, (h.caches c).isroot = true → (h.caches c).len = 0

structure Step (X : CId → Prop) (h h' : Heap) : Prop where
  inv : Inv h'
  own : Own h → Own h'
  nextC : h.nextC ≤ h'.nextC
  pool : h'.pool = h.pool
  caches : ∀ d < h.nextC, ¬X d → h'.caches d = h.caches d
  roots : ∀ d < h'.nextC, (h'.caches d).isroot = true → d < h.nextC ∧ (h.caches d).isroot = true
  owner : Own h → ∀ q, (h'.mem q).owner = (h.mem q).owner ∨ (h'.mem q).owner = none ∨
    ∃ d, (h'.mem q).owner = some d ∧ (X d ∨ h.nextC ≤ d)
  next : h.next ≤ h'.next
  slots : ∀ d < h'.nextC, ∀ q ∈ (h'.caches d).slots, (d < h.nextC ∧ q ∈ (h.caches d).slots) ∨ h.next ≤ q

theorem Step.refl {X : CId → Prop} {h : Heap} (I : Inv h) : Step X h h :=
  ⟨I, id, Nat.le_refl _, rfl, fun _ _ _ => rfl, fun _ hd hr => ⟨hd, hr⟩, fun _ _ => Or.inl rfl,
   Nat.le_refl _, fun _ hd _ hq => Or.inl ⟨hd, hq⟩⟩

theorem Step.trans {X : CId → Prop} {h h1 h2 : Heap} (a : Step X h h1) (b : Step X h1 h2) : Step X h h2 where
  inv := b.inv
  own O := b.own (a.own O)
  nextC := Nat.le_trans a.nextC b.nextC
  pool := b.pool.trans a.pool
  caches d hd hX := by rw [b.caches d (Nat.lt_of_lt_of_le hd a.nextC) hX, a.caches d hd hX]
  roots d hd hr := by obtain ⟨h1, h2⟩ := b.roots d hd hr; exact a.roots d h1 h2
  owner O q := by
    have hn := a.nextC
    rcases b.owner (a.own O) q with e | e | ⟨d, e, hd⟩
    · rw [e]; exact a.owner O q
    · exact Or.inr (Or.inl e)
    · refine Or.inr (Or.inr ⟨d, e, hd.imp id (fun h => by omega)⟩)
  next := Nat.le_trans a.next b.next
  slots d hd q hq := (b.slots d hd q hq).elim (fun h => a.slots d h.1 q h.2) (fun h => Or.inr (Nat.le_trans a.next h))

theorem Step.mono {X Y : CId → Prop} {h h' : Heap} (a : Step X h h') (hs : ∀ d, X d → Y d) : Step Y h h' where
  inv := a.inv
  own := a.own
  nextC := a.nextC
  pool := a.pool
  caches d hd hY := a.caches d hd (fun h => hY (hs d h))
  roots := a.roots
  owner O q := (a.owner O q).imp id (Or.imp id (fun ⟨d, e, hd⟩ => ⟨d, e, hd.imp (hs d) id⟩))
  next := a.next
  slots := a.slots

theorem Own.set {h : Heap} (O : Own h) (p : Ptr) (n : Node) (ho : n.owner = (h.mem p).owner) : Own (h.set p n) := by
  have key : ∀ q, ((h.set p n).mem q).owner = (h.mem q).owner := by
    intro q
    by_cases e : q = p
    · subst e; rw [set_mem_same, ho]
    · rw [set_mem_ne _ _ e]
  exact ⟨fun q hq => (key q).trans (O.fresh q hq), fun c hc q hq => by rw [key]; exact O.slot c hc q hq,
    fun c hc q hq => by rw [key]; exact O.tail c hc q hq, O.root⟩

/-- Writing a node without changing its owner. -/
theorem set_step {X : CId → Prop} {h : Heap} (I : Inv h) (p : Ptr) (n : Node) (hdt : p < 5 → n.dt = (h.mem p).dt)
    (ho : n.owner = (h.mem p).owner) : Step X h (h.set p n) where
  inv := I.set p n hdt (fun c hc => I.owner p c (ho ▸ hc))
  own O := O.set p n ho
  nextC := Nat.le_refl _
  pool := rfl
  caches _ _ _ := rfl
  roots _ hd hr := ⟨hd, hr⟩
  owner _ q := by
    by_cases e : q = p
    · subst e; rw [set_mem_same, ho]; exact Or.inl rfl
    · rw [set_mem_ne _ _ e]; exact Or.inl rfl
  next := Nat.le_refl _
  slots _ hd _ hq := Or.inl ⟨hd, hq⟩

theorem upd_step {X : CId → Prop} {h : Heap} (I : Inv h) (p : Ptr) (f : Node → Node)
    (hdt : p < 5 → (f (h.mem p)).dt = (h.mem p).dt) (ho : (f (h.mem p)).owner = (h.mem p).owner) : Step X h (h.upd p f) :=
  set_step I p _ hdt ho

theorem reset_step {X : CId → Prop} {h : Heap} (I : Inv h) (p : Ptr) (t : VT) : Step X h (reset h p t) := by
  unfold reset
  split
  · exact Step.refl I
  · rename_i hs
    exact upd_step I p _ (fun h5 => absurd (shared_iff.2 h5) hs) rfl

theorem new_step {X : CId → Prop} {h : Heap} (I : Inv h) (n : Node) (hn : n.owner = none) : Step X h (h.new n).2 where
  inv := (new_spec I n (fun c hc => by rw [hn] at hc; cases hc)).1.inv
  own O := by
    have O' := O.set h.next n (by rw [hn, O.fresh _ (Nat.le_refl _)])
    refine ⟨fun q hq => ?_, O'.slot, O'.tail, O'.root⟩
    exact O'.fresh q (by simp only [Heap.new, set_next] at hq ⊢; omega)
  nextC := Nat.le_refl _
  pool := rfl
  caches _ _ _ := rfl
  roots _ hd hr := ⟨hd, hr⟩
  owner _ q := by
    by_cases e : q = h.next
    · subst e; refine Or.inr (Or.inl ?_); simp [Heap.new, hn]
    · exact Or.inl (by simp [Heap.new, set_mem_ne _ _ e])
  next := Nat.le_succ _
  slots _ hd _ hq := Or.inl ⟨hd, hq⟩

theorem newValue_step {X : CId → Prop} {h : Heap} (I : Inv h) (t : VT) : Step X h (newValue h t).2 := by
  unfold newValue
  split
  · exact Step.refl I
  · have s := new_step (X := X) I Node.zero rfl
    exact s.trans (reset_step s.inv _ _)

theorem grow_step {X : CId → Prop} {h : Heap} (I : Inv h) {c : CId} (hX : X c) (hc : c < h.nextC)
    (hfull : ¬(h.caches c).len < (h.caches c).slots.length) : Step X h (growCache h c) := by
  obtain ⟨g, hn, hlen, hr, -, hcs, hge, -, -⟩ := growCache_spec I hc hfull
  have h5 := I.next5
  let cap := max (h.grow (h.caches c).slots.length) ((h.caches c).slots.length + 1)
  have hx : (growCache h c).next = h.next + cap := by simp [growCache, Heap.setC, cap]
  have hslots : ((growCache h c).caches c).slots = (List.range cap).map (h.next + ·) := by simp [growCache, Heap.setC, cap]
  have hmem : ∀ q, (growCache h c).mem q = if h.next ≤ q ∧ q < h.next + cap then
        (match (h.caches c).slots[q - h.next]? with | some o => h.mem o | none => Node.zero) else h.mem q := by
    intro q; simp only [growCache, Heap.setC]; rfl
  have hcopy : ∀ i, i < cap → ((growCache h c).mem (h.next + i)).owner = none ∨
      ∃ o, (h.caches c).slots[i]? = some o ∧ ((growCache h c).mem (h.next + i)).owner = (h.mem o).owner := by
    intro i hi
    rw [hmem, if_pos (by omega), Nat.add_sub_cancel_left]
    cases ho : (h.caches c).slots[i]? with
    | none => exact Or.inl rfl
    | some o => exact Or.inr ⟨o, rfl, rfl⟩
  have hold : ∀ q, q < h.next → (growCache h c).mem q = h.mem q := fun q hq => by rw [hmem, if_neg (by omega)]
  refine ⟨g.inv, fun O => ⟨?_, ?_, ?_, ?_⟩, g.nextC, g.pool, ?_, ?_, fun O => ?_, by omega, ?_⟩
  · intro q hq
    rw [hx] at hq
    rw [hmem, if_neg (by omega)]
    exact O.fresh q (by omega)
  · intro d hd q hq
    rw [hn] at hd
    by_cases e : d = c
    · subst e
      rw [hslots] at hq
      obtain ⟨i, hi, rfl⟩ := List.mem_map.1 hq
      rw [List.mem_range] at hi
      rcases hcopy i hi with h1 | ⟨o, ho, h1⟩
      · exact Or.inl h1
      · rw [h1]; exact O.slot d hc o (List.mem_of_getElem? ho)
    · rw [hcs d e] at hq
      rw [hold q (I.range d hd q hq).2]
      exact O.slot d hd q hq
  · intro d hd q hq
    rw [hn] at hd
    by_cases e : d = c
    · subst e
      rw [hslots] at hq
      obtain ⟨i, hi⟩ := List.getElem?_of_mem hq
      rw [List.getElem?_drop, List.getElem?_map] at hi
      obtain ⟨j, hj, rfl⟩ := Option.map_eq_some_iff.1 hi
      obtain ⟨hj1, hj2⟩ := List.getElem?_eq_some_iff.1 hj
      rw [List.length_range] at hj1
      rw [List.getElem_range] at hj2
      subst hj2
      rcases hcopy (1 + i) hj1 with h1 | ⟨o, ho, h1⟩
      · exact h1
      · rw [h1]
        refine O.tail d hc o (List.mem_of_getElem? (i := i) ?_)
        rw [List.getElem?_drop]; exact ho
    · rw [hcs d e] at hq
      rw [hold q (I.range d hd q (List.mem_of_mem_drop hq)).2]
      exact O.tail d hd q hq
  · intro d hd hroot
    rw [hn] at hd
    by_cases e : d = c
    · subst e; rw [hlen]; exact O.root d hd (hr ▸ hroot)
    · rw [hcs d e] at hroot ⊢; exact O.root d hd hroot
  · intro d _ hnx
    exact hcs d (fun e => hnx (e ▸ hX))
  · intro d hd hroot
    rw [hn] at hd
    refine ⟨hd, ?_⟩
    by_cases e : d = c
    · subst e; exact hr ▸ hroot
    · rw [hcs d e] at hroot; exact hroot
  · intro q
    by_cases hq : h.next ≤ q ∧ q < h.next + cap
    · obtain ⟨i, rfl⟩ : ∃ i, q = h.next + i := ⟨q - h.next, by omega⟩
      rcases hcopy i (by omega) with h1 | ⟨o, ho, h1⟩
      · exact Or.inr (Or.inl h1)
      · rcases O.slot c hc o (List.mem_of_getElem? ho) with h2 | h2
        · exact Or.inr (Or.inl (h1.trans h2))
        · exact Or.inr (Or.inr ⟨c, h1.trans h2, Or.inl hX⟩)
    · rw [hmem, if_neg hq]; exact Or.inl rfl
  · intro d hd q hq
    rw [hn] at hd
    by_cases e : d = c
    · subst e; rw [hslots] at hq; exact Or.inr (mem_range_map.1 hq).1
    · rw [hcs d e] at hq; exact Or.inl ⟨hd, hq⟩

theorem take_step {X : CId → Prop} {h : Heap} (I : Inv h) {c : CId} (hX : X c) (hc : c < h.nextC)
    (hlt : (h.caches c).len < (h.caches c).slots.length) (t : VT) :
    let p := ((h.caches c).slots[(h.caches c).len]?).getD 0
    Step X h ((h.setC c { (h.caches c) with len := (h.caches c).len + 1, isroot := false }).set p
        { (h.mem p).reset t with owner := if (h.caches c).isroot then some c else (h.mem p).owner }) := by
  intro p
  have hget : p = (h.caches c).slots[(h.caches c).len] := by simp [p, List.getElem?_eq_getElem hlt]
  have hpm : p ∈ (h.caches c).slots := by rw [hget]; exact List.getElem_mem hlt
  obtain ⟨g, hw, hna, hge⟩ := take_spec I hc hlt { (h.caches c) with len := (h.caches c).len + 1, isroot := false } rfl rfl
  generalize hn' : ({ (h.mem p).reset t with owner := if (h.caches c).isroot then some c else (h.mem p).owner } : Node) = n
  have hno : n.owner = if (h.caches c).isroot then some c else (h.mem p).owner := by rw [← hn']
  have hslot : Own h → n.owner = none ∨ n.owner = some c := by
    intro O
    rw [hno]; split
    · exact Or.inr rfl
    · exact O.slot c hc p hpm
  have hcd : ∀ d, d ≠ c → (h.setC c { (h.caches c) with len := (h.caches c).len + 1, isroot := false }).caches d = h.caches d := by
    intro d hd; simp [Heap.setC, hd]
  have hcc : (h.setC c { (h.caches c) with len := (h.caches c).len + 1, isroot := false }).caches c = { (h.caches c) with len := (h.caches c).len + 1, isroot := false } := by
    simp [Heap.setC]
  have hsl : ∀ d, ((h.setC c { (h.caches c) with len := (h.caches c).len + 1, isroot := false }).caches d).slots = (h.caches d).slots := by
    intro d
    by_cases e : d = c
    · subst e; rw [hcc]
    · rw [hcd d e]
  have hm1 : (h.setC c { (h.caches c) with len := (h.caches c).len + 1, isroot := false }).mem = h.mem := rfl
  have hx1 : (h.setC c { (h.caches c) with len := (h.caches c).len + 1, isroot := false }).next = h.next := rfl
  have hn1 : (h.setC c { (h.caches c) with len := (h.caches c).len + 1, isroot := false }).nextC = h.nextC := rfl
  generalize (h.setC c { (h.caches c) with len := (h.caches c).len + 1, isroot := false }) = h1 at *
  have hpn : p < h.next := (I.range c hc p hpm).2
  have hne : ∀ q, q ≠ p → (h1.set p n).mem q = h.mem q := fun q hq => by rw [set_mem_ne _ _ hq, hm1]
  refine ⟨?_, fun O => ⟨?_, ?_, ?_, ?_⟩, g.nextC, g.pool, ?_, ?_, fun O => ?_, by rw [set_next, hx1]; exact Nat.le_refl _, fun d hd q hq => Or.inl ⟨by rwa [set_nextC, hn1] at hd, by rwa [set_caches, hsl] at hq⟩⟩
  · refine g.inv.set p n (fun h => absurd h (Nat.not_lt.2 hge)) ?_
    intro d hd
    rw [hno] at hd
    split at hd
    · cases hd; exact Nat.lt_of_lt_of_le hc g.nextC
    · exact Nat.lt_of_lt_of_le (I.owner p d hd) g.nextC
  · intro q hq
    rw [set_next, hx1] at hq
    rw [hne q (by omega)]
    exact O.fresh q hq
  · intro d hd q hq
    rw [set_nextC, hn1] at hd
    rw [set_caches, hsl] at hq
    by_cases e : q = p
    · subst e
      rw [set_mem_same]
      by_cases ed : d = c
      · subst ed; exact hslot O
      · exact absurd hq (I.disj c hc d hd (Ne.symm ed) _ hpm)
    · rw [hne q e]; exact O.slot d hd q hq
  · intro d hd q hq
    rw [set_nextC, hn1] at hd
    rw [set_caches, hsl] at hq
    by_cases e : q = p
    · subst e
      rw [set_mem_same, hno]
      by_cases ed : d = c
      · subst ed
        split
        · rename_i hroot
          have h0 := O.root d hc hroot
          exfalso
          have hnd := I.nodup d hc
          rw [hget] at hq
          simp only [h0] at hq
          cases hs : (h.caches d).slots with
          | nil => rw [hs] at hpm; cases hpm
          | cons a as =>
            simp only [hs, List.drop_one, List.tail_cons, List.getElem_cons_zero] at hq
            rw [hs] at hnd
            exact (List.nodup_cons.1 hnd).1 hq
        · exact O.tail d hd _ hq
      · exact absurd (List.mem_of_mem_drop hq) (I.disj c hc d hd (Ne.symm ed) _ hpm)
    · rw [hne q e]; exact O.tail d hd q hq
  · intro d hd hroot
    rw [set_nextC, hn1] at hd
    rw [set_caches] at hroot ⊢
    by_cases e : d = c
    · subst e; rw [hcc] at hroot; cases hroot
    · rw [hcd d e] at hroot ⊢; exact O.root d hd hroot
  · intro d _ hnx
    exact hcd d (fun e => hnx (e ▸ hX))
  · intro d hd hroot
    rw [set_nextC, hn1] at hd
    rw [set_caches] at hroot
    refine ⟨hd, ?_⟩
    by_cases e : d = c
    · subst e; rw [hcc] at hroot; cases hroot
    · rw [hcd d e] at hroot; exact hroot
  · intro q
    by_cases e : q = p
    · subst e
      rw [set_mem_same]
      rcases hslot O with h1 | h1
      · exact Or.inr (Or.inl h1)
      · exact Or.inr (Or.inr ⟨c, h1, Or.inl hX⟩)
    · rw [hne q e]; exact Or.inl rfl

theorem newCache_step {X : CId → Prop} {h : Heap} (I : Inv h) (l : Nat) (hl : l ≤ 8) (b : Bool) (hb : b = true → l = 0) :
    Inv (newCache h b l).2 ∧ (Own h → Own (newCache h b l).2) ∧ (b = false → Step X h (newCache h b l).2) := by
  obtain ⟨g, h1, h2, h3, h4, h5, h6, -⟩ := newCache_spec I b l hl
  have hmem : ∀ q, (newCache h b l).2.mem q = if h.next ≤ q ∧ q < h.next + 8 then Node.zero else h.mem q := fun _ => rfl
  have how : ∀ q, ((newCache h b l).2.mem q).owner = (h.mem q).owner ∨ ((newCache h b l).2.mem q).owner = none := by
    intro q; rw [hmem]; split
    · exact Or.inr rfl
    · exact Or.inl rfl
  have hlast : ∀ c, c < h.nextC + 1 → c < h.nextC ∨ c = (newCache h b l).1 := fun c hc => by rw [h1]; omega
  have O' : Own h → Own (newCache h b l).2 := by
    intro O
    refine ⟨?_, ?_, ?_, ?_⟩
    · intro q hq
      rw [h3] at hq
      rcases how q with e | e
      · rw [e]; exact O.fresh q (by omega)
      · exact e
    · intro c hc q hq
      rw [h2] at hc
      rcases hlast c hc with hc | rfl
      · rw [h5 c hc] at hq
        rcases how q with e | e
        · rw [e]; exact O.slot c hc q hq
        · exact Or.inl e
      · rw [h4] at hq
        have := mem_range_map.1 hq
        rw [h6 q this.1 this.2]; exact Or.inl rfl
    · intro c hc q hq
      rw [h2] at hc
      rcases hlast c hc with hc | rfl
      · rw [h5 c hc] at hq
        rcases how q with e | e
        · rw [e]; exact O.tail c hc q hq
        · exact e
      · rw [h4] at hq
        have := mem_range_map.1 (List.mem_of_mem_drop hq)
        rw [h6 q this.1 this.2]; rfl
    · intro c hc hr
      rw [h2] at hc
      rcases hlast c hc with hc | rfl
      · rw [h5 c hc] at hr ⊢; exact O.root c hc hr
      · rw [h4] at hr ⊢; exact hb hr
  refine ⟨g.inv, O', fun hbf => ⟨g.inv, O', g.nextC, g.pool, fun d hd _ => h5 d hd, ?_, fun _ q => (how q).imp id Or.inl, by omega, ?_⟩⟩
  · intro d hd hr
    rw [h2] at hd
    rcases hlast d hd with hd | rfl
    · rw [h5 d hd] at hr; exact ⟨hd, hr⟩
    · rw [h4, hbf] at hr; cases hr
  · intro d hd q hq
    rw [h2] at hd
    rcases hlast d hd with hd | rfl
    · rw [h5 d hd] at hq; exact Or.inl ⟨hd, hq⟩
    · rw [h4] at hq; exact Or.inr (mem_range_map.1 hq).1

/-- `getValue` uses no other cache. -/
theorem getValue_step {X : CId → Prop} {h : Heap} (I : Inv h) (c : Option CId) (t : VT) (hc : ∀ d, c = some d → d < h.nextC)
    (hX : ∀ d, c = some d → X d) : Step X h (getValue h c t).2 := by
  cases c with
  | some c =>
    obtain ⟨h1, p, g, hc1, hlt, rfl, he, heq⟩ := getValue_some h c t I (hc c rfl)
    rw [heq]
    have s1 : Step X h h1 := by
      rw [he]; split
      · exact Step.refl I
      · rename_i hf; exact grow_step I (hX c rfl) (hc c rfl) hf
    exact s1.trans (take_step s1.inv (hX c rfl) hc1 hlt t)
  | none =>
    obtain ⟨g, h1, h2, h3, h4, h5, h6, -⟩ := newCache_spec I false 1 (by omega)
    obtain ⟨I1, O1, s1⟩ := newCache_step (X := X) I 1 (by omega) false (by simp)
    have s1 := s1 rfl
    have hp : (((newCache h false 1).2.caches (newCache h false 1).1).slots[0]?).getD 0 = h.next := by
      rw [h4]; rfl
    simp only [getValue, hp]
    have hpn : h.next ∈ ((newCache h false 1).2.caches (newCache h false 1).1).slots := by
      rw [h4]; exact mem_range_map.2 ⟨Nat.le_refl _, by omega⟩
    have hne : ∀ q, q ≠ h.next → ((newCache h false 1).2.set h.next { Node.zero with dt := t, owner := some (newCache h false 1).1 }).mem q
        = (newCache h false 1).2.mem q := fun q hq => set_mem_ne _ _ hq
    have hc1 : (newCache h false 1).1 < (newCache h false 1).2.nextC := by rw [h1, h2]; omega
    refine ⟨?_, fun O => ⟨?_, ?_, ?_, (O1 O).root⟩, s1.nextC, s1.pool, s1.caches, s1.roots, fun O => ?_, s1.next, s1.slots⟩
    · exact I1.set _ _ (fun hh => by have := I.next5; omega) (fun d hd => by cases hd; exact hc1)
    · intro q hq
      rw [set_next, h3] at hq
      rw [hne q (by omega)]
      exact (O1 O).fresh q (by rw [h3]; exact hq)
    · intro d hd q hq
      by_cases e : q = h.next
      · subst e
        rw [set_mem_same]
        by_cases ed : d = (newCache h false 1).1
        · subst ed; exact Or.inr rfl
        · exact absurd hq (I1.disj _ hc1 d hd (Ne.symm ed) _ hpn)
      · rw [hne q e]; exact (O1 O).slot d hd q hq
    · intro d hd q hq
      by_cases e : q = h.next
      · subst e
        exfalso
        by_cases ed : d = (newCache h false 1).1
        · subst ed
          rw [set_caches, h4] at hq
          simp [List.range, List.range.loop] at hq
        · exact absurd (List.mem_of_mem_drop hq) (I1.disj _ hc1 d hd (Ne.symm ed) _ hpn)
      · rw [hne q e]; exact (O1 O).tail d hd q hq
    · intro q
      by_cases e : q = h.next
      · subst e
        rw [set_mem_same]
        exact Or.inr (Or.inr ⟨_, rfl, Or.inr (by rw [h1]; omega)⟩)
      · rw [hne q e]; exact s1.owner O q

/-! ## The operations -/

section
variable {X : CId → Prop} {h : Heap}

theorem Inv.refl_st (K : Inv h) : Step X h h := Step.refl K 
theorem Inv.reset_st (K : Inv h) (p : Ptr) (t : VT) : Step X h (Heap.reset h p t) := reset_step K p t
theorem Inv.upd_st (K : Inv h) (p : Ptr) (f : Node → Node) (hf : ∀ n, (f n).dt = n.dt ∧ (f n).owner = n.owner) : Step X h (h.upd p f) :=
  upd_step K p f (fun _ => (hf _).1) (hf _).2
theorem Inv.set_st (K : Inv h) (p : Ptr) (n : Node) (hd : p < 5 → n.dt = (h.mem p).dt) (ho : n.owner = (h.mem p).owner) : Step X h (h.set p n) :=
  set_step K p n hd ho

theorem Step.andUpd {h1 : Heap} (s : Step X h h1) {p : Ptr} {f : Node → Node} (hf : ∀ n, (f n).dt = n.dt ∧ (f n).owner = n.owner) :
    Step X h (h1.upd p f) := s.trans (s.inv.upd_st p f hf)

theorem Inv.ifReset_st (K : Inv h) (P : Prop) [Decidable P] (p : Ptr) (t : VT) : Step X h (if P then h else Heap.reset h p t) := by
  split
  · exact K.refl_st
  · exact K.reset_st p t

theorem Inv.ifReset'_st (K : Inv h) (P : Prop) [Decidable P] (p : Ptr) (t : VT) : Step X h (if P then Heap.reset h p t else h) := by
  split
  · exact K.reset_st p t
  · exact K.refl_st

theorem ifReset_owner (P : Prop) [Decidable P] (p : Ptr) (t : VT) (q : Ptr) :
    ((if P then h else reset h p t).mem q).owner = (h.mem q).owner := by
  split
  · rfl
  · exact reset_owner h p t q

theorem Inv.getValue_st (K : Inv h) (c : Option CId) (t : VT) (hc : ∀ d, c = some d → d < h.nextC) (hX : ∀ d, c = some d → X d) :
    Step X h (getValue h c t).2 := getValue_step K c t hc hX

theorem Inv.objIndex_st (K : Inv h) (E : Env) (p : Ptr) (name : Bytes) : Step X h (objIndex E h p name).2 :=
  K.set_st p _ (fun _ => rfl) rfl

theorem objIndex_owner (E : Env) (p : Ptr) (name : Bytes) (q : Ptr) : ((objIndex E h p name).2.mem q).owner = (h.mem q).owner := by
  unfold objIndex
  by_cases e : q = p
  · subst e; simp
  · simp [set_mem_ne _ _ e]

theorem Inv.removeKey_st (K : Inv h) (E : Env) (p : Ptr) (name : Bytes) : Step X h (removeKey E h p name) := by
  unfold Heap.removeKey
  split
  · have s := K.objIndex_st (X := X) E p name
    generalize Heap.objIndex E h p name = r at s ⊢
    obtain ⟨_ | i, h1⟩ := r
    · exact s
    · exact s.andUpd (by intro n; exact ⟨rfl, rfl⟩)
  · exact K.refl_st

theorem Inv.extractValue_st (K : Inv h) (E : Env) (p : Ptr) (name : Bytes) : Step X h (extractValue E h p name).2 := by
  unfold Heap.extractValue
  split
  · have s := K.objIndex_st (X := X) E p name
    generalize Heap.objIndex E h p name = r at s ⊢
    obtain ⟨_ | i, h1⟩ := r
    · exact s
    · dsimp only; exact s.andUpd (by intro n; dsimp only; exact ⟨rfl, rfl⟩)
  · exact K.refl_st

theorem Inv.valueByName_st (K : Inv h) (E : Env) (p : Ptr) (name : Bytes) : Step X h (valueByName E h p name).2 := by
  unfold Heap.valueByName
  split
  · exact K.objIndex_st E p name
  · simp only; split <;> exact K.refl_st
  · exact K.refl_st

theorem Inv.valueByPath_st (E : Env) (path : List Bytes) : ∀ {h : Heap} (_ : Inv h) (p : Ptr), Step X h (valueByPath E h p path).2 := by
  induction path with
  | nil => intro h K p; exact K.refl_st
  | cons k path ih =>
    intro h K p
    rw [Heap.valueByPath]
    have s := K.valueByName_st (X := X) E p k
    generalize Heap.valueByName E h p k = r at s ⊢
    obtain ⟨_ | q, h1⟩ := r
    · exact s
    · exact s.trans (ih s.inv q)

theorem Inv.setIndexCached_st (K : Inv h) (p : Ptr) (idx : Int) (t : VT) (c : Option CId) (hc : ∀ d, c = some d → d < h.nextC)
    (hX : ∀ d, c = some d → X d) : Step X h (setIndexCached h p idx t c).2 := by
  unfold Heap.setIndexCached
  have s := K.ifReset_st (X := X) ((h.mem p).dt = .array) p .array
  have hc1 : ∀ d, c = some d → d < (if (h.mem p).dt = .array then h else Heap.reset h p .array).nextC :=
    fun d hd => Nat.lt_of_lt_of_le (hc d hd) s.nextC
  generalize (if (h.mem p).dt = .array then h else Heap.reset h p .array) = h1 at *
  refine s.trans ?_
  have g := s.inv.getValue_st (X := X) c t hc1 hX
  simp only
  split
  · split
    · split
      · split
        · dsimp only; exact g.andUpd (by intro n; dsimp only; exact ⟨rfl, rfl⟩)
        · exact s.inv.reset_st _ t
      · exact s.inv.refl_st
    · dsimp only; exact g.andUpd (by intro n; dsimp only; exact ⟨rfl, rfl⟩)
  · dsimp only; exact g.andUpd (by intro n; dsimp only; exact ⟨rfl, rfl⟩)

theorem Inv.setIndex_st (K : Inv h) (p : Ptr) (idx : Int) (t : VT) (hX : ∀ d, (h.mem p).owner = some d → X d) : Step X h (setIndex h p idx t).2 :=
  K.setIndexCached_st p idx t _ (fun d hd => K.owner p d hd) hX

theorem Inv.setIndexValue_st (K : Inv h) (p : Ptr) (idx : Int) (v : Option Ptr) : Step X h (setIndexValue h p idx v) := by
  unfold Heap.setIndexValue
  have s := K.ifReset_st (X := X) ((h.mem p).dt = .array) p .array
  simp only
  generalize (if (h.mem p).dt = .array then h else Heap.reset h p .array) = h1 at *
  refine s.trans ?_
  split <;> exact s.inv.upd_st p _ (by intro n; exact ⟨rfl, rfl⟩)

theorem Inv.insertValue_st (K : Inv h) (p : Ptr) (idx : Int) (t : VT) : Step X h (insertValue h p idx t).2 := by
  unfold Heap.insertValue
  have s := K.ifReset_st (X := X) ((h.mem p).dt = .array) p .array
  simp only
  generalize (if (h.mem p).dt = .array then h else Heap.reset h p .array) = h1 at *
  refine s.trans ?_
  have g := newValue_step (X := X) s.inv t
  refine g.trans ?_
  generalize (if idx < 0 then 0 else idx) = idx at *
  split <;> (dsimp only; exact g.inv.upd_st p _ (by intro n; exact ⟨rfl, rfl⟩))

theorem Inv.append_st (K : Inv h) (p : Ptr) (t : VT) : Step X h (append h p t).2 := K.insertValue_st p _ t

theorem Inv.removeIndex_st (K : Inv h) (p : Ptr) (idx : Int) : Step X h (removeIndex h p idx) := by
  unfold Heap.removeIndex
  split
  · exact K.upd_st p _ (by intro n; exact ⟨rfl, rfl⟩)
  · exact K.refl_st

theorem Inv.setKeyCached_st (K : Inv h) (E : Env) (p : Ptr) (name : Bytes) (t : VT) (c : Option CId) (hc : ∀ d, c = some d → d < h.nextC)
    (hX : ∀ d, c = some d → X d) (hXp : ∀ d, (h.mem p).owner = some d → X d) {q : Ptr} {h' : Heap}
    (e : setKeyCached E h p name t c = .ok (q, h')) : Step X h h' := by
  unfold Heap.setKeyCached at e
  split at e
  · have := K.setIndex_st (X := X) p (strIdx E name) t hXp
    simp only [Res.ok.injEq] at e
    rw [e] at this
    exact this
  · have s1 := K.ifReset_st (X := X) ((h.mem p).dt = .object) p .object
    simp only at e
    generalize (if (h.mem p).dt = .object then h else Heap.reset h p .object) = h1 at *
    have s2 := s1.trans (s1.inv.objIndex_st E p name)
    generalize Heap.objIndex E h1 p name = r at s2 e
    obtain ⟨_ | i, h2⟩ := r <;> simp only at e s2
    · have g := s2.inv.getValue_st (X := X) c t (fun d hd => Nat.lt_of_lt_of_le (hc d hd) s2.nextC) hX
      cases e
      exact s2.trans (g.andUpd (by intro n; exact ⟨rfl, rfl⟩))
    · split at e
      · cases e
      · split at e
        · have g := s2.inv.getValue_st (X := X) c t (fun d hd => Nat.lt_of_lt_of_le (hc d hd) s2.nextC) hX
          cases e
          exact s2.trans (g.andUpd (by intro n; exact ⟨rfl, rfl⟩))
        · split at e
          · cases e; exact s2.trans (s2.inv.reset_st _ t)
          · cases e; exact s2

theorem Inv.setKey_st (K : Inv h) (E : Env) (p : Ptr) (name : Bytes) (t : VT) (hX : ∀ d, (h.mem p).owner = some d → X d) {q : Ptr} {h' : Heap}
    (e : setKey E h p name t = .ok (q, h')) : Step X h h' :=
  K.setKeyCached_st E p name t _ (fun d hd => K.owner p d hd) hX hX e

theorem Inv.setKeyValue_st (K : Inv h) (E : Env) (p : Ptr) (name : Bytes) (v : Option Ptr) : Step X h (setKeyValue E h p name v) := by
  unfold Heap.setKeyValue
  split
  · exact K.setIndexValue_st p _ v
  · have s1 := K.ifReset_st (X := X) ((h.mem p).dt = .object) p .object
    simp only
    generalize (if (h.mem p).dt = .object then h else Heap.reset h p .object) = h1 at *
    have s2 := s1.trans (s1.inv.objIndex_st E p name)
    generalize Heap.objIndex E h1 p name = r at s2 ⊢
    obtain ⟨_ | i, h2⟩ := r
    · exact s2.andUpd (by intro n; exact ⟨rfl, rfl⟩)
    · exact s2.andUpd (by intro n; exact ⟨rfl, rfl⟩)

theorem Inv.setInt_st (K : Inv h) (p : Ptr) (x : BitVec 64) : Step X h (setInt h p x) := by
  unfold Heap.setInt
  have s := K.ifReset_st (X := X) ((h.mem p).dt = .int) p .int
  exact s.andUpd (by intro n; exact ⟨rfl, rfl⟩)

theorem Inv.setString_st (K : Inv h) (p : Ptr) (x : Bytes) : Step X h (setString h p x) := by
  unfold Heap.setString
  have s := K.ifReset_st (X := X) ((h.mem p).dt = .string) p .string
  exact s.andUpd (by intro n; exact ⟨rfl, rfl⟩)

theorem Inv.setBool_st (K : Inv h) (p : Ptr) (b : Bool) : Step X h (setBool h p b) := by
  unfold Heap.setBool
  split
  · exact K.refl_st
  · split <;> exact K.reset_st p _

theorem Inv.setDouble_st (K : Inv h) (p : Ptr) (x : F64) : Step X h (setDouble h p x) := by
  unfold Heap.setDouble
  split
  · exact K.refl_st
  · have s := K.ifReset'_st (X := X) ((h.mem p).dt ≠ .double ∧ (h.mem p).dt ≠ .dateTime) p .double
    exact s.andUpd (by intro n; exact ⟨rfl, rfl⟩)

theorem Inv.setTime_st (K : Inv h) (p : Ptr) (x : F64) : Step X h (setTime h p x) := by
  unfold Heap.setTime
  have s := K.ifReset'_st (X := X) ((h.mem p).dt ≠ .double ∧ (h.mem p).dt ≠ .dateTime) p .dateTime
  exact s.andUpd (by intro n; exact ⟨rfl, rfl⟩)

theorem Inv.setFloat_st (K : Inv h) (p : Ptr) (x : F32) : Step X h (setFloat h p x) := by
  unfold Heap.setFloat
  split
  · exact K.refl_st
  · have s := K.ifReset'_st (X := X) ((h.mem p).dt ≠ .float) p .float
    exact s.andUpd (by intro n; exact ⟨rfl, rfl⟩)

theorem constVT_cases {p : Ptr} (hp : p < 5) : constVT p = .null ∨ constVT p = .true ∨ constVT p = .false ∨ constVT p = .nan ∨ constVT p = .inf := by
  have : p = 0 ∨ p = 1 ∨ p = 2 ∨ p = 3 ∨ p = 4 := by omega
  rcases this with rfl | rfl | rfl | rfl | rfl <;> decide

/-- `String()` changes only raw strings, and no constant is one. -/
theorem Inv.getString_st (K : Inv h) (E : Env) (json : Res Bytes) (p : Ptr) : Step X h (h.set p (getString E json (h.mem p)).2) := by
  refine K.set_st p _ ?_ ?_
  · intro hp
    have := K.const p hp
    unfold Heap.getString
    rcases constVT_cases hp with e | e | e | e | e <;> rw [e] at this <;> simp only [this]
  · unfold Heap.getString; split <;> rfl

theorem Inv.items_st (K : Inv h) (E : Env) (p : Ptr) (idx : Int) : Step X h (items E h p idx).2 := by
  unfold Heap.items
  simp only
  split
  · split <;> exact K.refl_st
  · split
    · exact K.set_st p _ (fun _ => rfl) rfl
    · exact K.refl_st
  · exact K.refl_st

end

end Dxs.Heap
