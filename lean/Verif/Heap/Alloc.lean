import Verif.Heap.Model

/-!
# What allocation guarantees

`Inv`: well-formedness of the memory. `Avail`: addresses that a later allocation may hand out. `getValue_spec`: the
interface of the allocator used by everything above it.
-/

namespace Dxs.Heap

/-- Types of the constants. -/
def constVT (p : Ptr) : VT :=
  if p = nullP then .null else if p = trueP then .true else if p = falseP then .false else if p = nanP then .nan else .inf

/-- Well-formedness of the memory. -/
structure Inv (h : Heap) : Prop where
  next5 : 5 ≤ h.next
  const : ∀ p < 5, (h.mem p).dt = constVT p
  capPos : ∀ c < h.nextC, 0 < (h.caches c).slots.length
  lenLe : ∀ c < h.nextC, (h.caches c).len ≤ (h.caches c).slots.length
  nodup : ∀ c < h.nextC, (h.caches c).slots.Nodup
  range : ∀ c < h.nextC, ∀ p ∈ (h.caches c).slots, 5 ≤ p ∧ p < h.next
  disj : ∀ c < h.nextC, ∀ d < h.nextC, c ≠ d → ∀ p ∈ (h.caches c).slots, p ∉ (h.caches d).slots
  owner : ∀ p c, (h.mem p).owner = some c → c < h.nextC
  pool : ∀ c ∈ h.pool, c < h.nextC

/-- An address that a later allocation may hand out. -/
def Avail (h : Heap) (q : Ptr) : Prop := h.next ≤ q ∨ ∃ c < h.nextC, q ∈ (h.caches c).slots.drop (h.caches c).len

/-- A node as allocation leaves it: everything is empty; only the scalar cell and the owner may be anything. -/
structure Blank (n : Node) (t : VT) : Prop where
  dt : n.dt = t
  ext : n.ext = 0
  ku : n.ku = false
  kvs : n.kvs = []
  str : n.str = []
  bin : n.bin = []
  arr : n.arr = []

theorem Blank.reset (n : Node) (t : VT) : Blank (n.reset t) t := ⟨rfl, rfl, rfl, rfl, rfl, rfl, rfl⟩

@[simp] theorem set_mem_same (h : Heap) (p : Ptr) (n : Node) : (h.set p n).mem p = n := by simp [Heap.set]
theorem set_mem_ne (h : Heap) {p q : Ptr} (n : Node) (hq : q ≠ p) : (h.set p n).mem q = h.mem q := by simp [Heap.set, hq]
@[simp] theorem set_next (h : Heap) (p : Ptr) (n : Node) : (h.set p n).next = h.next := rfl
@[simp] theorem set_nextC (h : Heap) (p : Ptr) (n : Node) : (h.set p n).nextC = h.nextC := rfl
@[simp] theorem set_caches (h : Heap) (p : Ptr) (n : Node) : (h.set p n).caches = h.caches := rfl
@[simp] theorem set_pool (h : Heap) (p : Ptr) (n : Node) : (h.set p n).pool = h.pool := rfl
@[simp] theorem set_grow (h : Heap) (p : Ptr) (n : Node) : (h.set p n).grow = h.grow := rfl
@[simp] theorem avail_set (h : Heap) (p : Ptr) (n : Node) (q : Ptr) : Avail (h.set p n) q ↔ Avail h q := Iff.rfl

@[simp] theorem upd_mem_same (h : Heap) (p : Ptr) (f : Node → Node) : (h.upd p f).mem p = f (h.mem p) := by simp [Heap.upd]
theorem upd_mem_ne (h : Heap) {p q : Ptr} (f : Node → Node) (hq : q ≠ p) : (h.upd p f).mem q = h.mem q :=
  set_mem_ne h _ hq
@[simp] theorem upd_next (h : Heap) (p : Ptr) (f : Node → Node) : (h.upd p f).next = h.next := rfl
@[simp] theorem upd_nextC (h : Heap) (p : Ptr) (f : Node → Node) : (h.upd p f).nextC = h.nextC := rfl
@[simp] theorem upd_caches (h : Heap) (p : Ptr) (f : Node → Node) : (h.upd p f).caches = h.caches := rfl
@[simp] theorem upd_pool (h : Heap) (p : Ptr) (f : Node → Node) : (h.upd p f).pool = h.pool := rfl
@[simp] theorem avail_upd (h : Heap) (p : Ptr) (f : Node → Node) (q : Ptr) : Avail (h.upd p f) q ↔ Avail h q := Iff.rfl

/-- Writing a node keeps the invariant if a constant keeps its type and the owner stays valid. -/
theorem Inv.set {h : Heap} (I : Inv h) (p : Ptr) (n : Node) (hdt : p < 5 → n.dt = (h.mem p).dt)
    (ho : ∀ c, n.owner = some c → c < h.nextC) : Inv (h.set p n) where
  next5 := I.next5
  const q hq := by
    by_cases e : q = p
    · subst e; simpa [hdt hq] using I.const q hq
    · rw [set_mem_ne _ _ e]; exact I.const q hq
  capPos := I.capPos
  lenLe := I.lenLe
  nodup := I.nodup
  range := I.range
  disj := I.disj
  owner q c hq := by
    by_cases e : q = p
    · subst e; rw [set_mem_same] at hq; exact ho c hq
    · rw [set_mem_ne _ _ e] at hq; exact I.owner q c hq
  pool := I.pool

theorem Inv.upd {h : Heap} (I : Inv h) (p : Ptr) (f : Node → Node) (hdt : p < 5 → (f (h.mem p)).dt = (h.mem p).dt)
    (ho : (f (h.mem p)).owner = (h.mem p).owner) : Inv (h.upd p f) :=
  I.set p _ hdt (fun c hc => I.owner p c (ho ▸ hc))

theorem shared_iff {p : Ptr} : shared p = true ↔ p < 5 := by simp [shared]

theorem Inv.reset {h : Heap} (I : Inv h) (p : Ptr) (t : VT) : Inv (reset h p t) := by
  unfold Heap.reset
  split
  · exact I
  · rename_i hs
    exact I.upd p _ (fun hp => absurd (shared_iff.2 hp) hs) rfl

theorem reset_mem {h : Heap} {p : Ptr} (hp : 5 ≤ p) (t : VT) : (reset h p t).mem p = (h.mem p).reset t := by
  have : shared p = false := by simp [shared, hp]
  simp [reset, this]

theorem reset_mem_ne {h : Heap} {p q : Ptr} (hq : q ≠ p) (t : VT) : (reset h p t).mem q = h.mem q := by
  unfold reset; split
  · rfl
  · exact upd_mem_ne _ _ hq

theorem reset_const {h : Heap} {p : Ptr} (hp : p < 5) (t : VT) : reset h p t = h := by
  simp [reset, shared_iff.2 hp]

@[simp] theorem avail_reset (h : Heap) (p : Ptr) (t : VT) (q : Ptr) : Avail (reset h p t) q ↔ Avail h q := by
  unfold reset; split <;> simp
@[simp] theorem reset_nextC (h : Heap) (p : Ptr) (t : VT) : (reset h p t).nextC = h.nextC := by unfold reset; split <;> rfl
@[simp] theorem reset_next (h : Heap) (p : Ptr) (t : VT) : (reset h p t).next = h.next := by unfold reset; split <;> rfl
@[simp] theorem reset_caches (h : Heap) (p : Ptr) (t : VT) : (reset h p t).caches = h.caches := by unfold reset; split <;> rfl
@[simp] theorem reset_pool (h : Heap) (p : Ptr) (t : VT) : (reset h p t).pool = h.pool := by unfold reset; split <;> rfl
theorem reset_owner (h : Heap) (p : Ptr) (t : VT) (q : Ptr) : ((reset h p t).mem q).owner = (h.mem q).owner := by
  by_cases e : q = p
  · subst e; unfold reset; split <;> simp [Node.reset]
  · rw [reset_mem_ne e]

/-- What an allocating step guarantees about everything that existed before. -/
structure Grows (h h' : Heap) : Prop where
  inv : Inv h'
  avail : ∀ q, Avail h' q → Avail h q
  mem : ∀ q, ¬Avail h q → h'.mem q = h.mem q
  nextC : h.nextC ≤ h'.nextC
  pool : h'.pool = h.pool

/-- What an allocation guarantees about the node it returns. -/
structure Allocated (h : Heap) (p : Ptr) (h' : Heap) (t : VT) : Prop extends Grows h h' where
  was : Avail h p
  isnt : ¬Avail h' p
  ge : 5 ≤ p
  blank : Blank (h'.mem p) t

theorem Inv.not_avail_const {h : Heap} (I : Inv h) {p : Ptr} (hp : p < 5) : ¬Avail h p := by
  rintro (h1 | ⟨c, hc, hm⟩)
  · have := I.next5; omega
  · have := (I.range c hc p (List.mem_of_mem_drop hm)).1; omega

theorem Inv.avail_ge {h : Heap} (I : Inv h) {p : Ptr} (hp : Avail h p) : 5 ≤ p := by
  rcases Nat.lt_or_ge p 5 with h1 | h1
  · exact absurd hp (I.not_avail_const h1)
  · exact h1

theorem range_map_nodup (n a : Nat) : ((List.range n).map (a + ·)).Nodup := by
  rw [List.Nodup, List.pairwise_map]
  refine (List.nodup_range (n := n)).imp ?_
  intro x y hne he
  omega

theorem mem_range_map {n a p : Nat} : p ∈ (List.range n).map (a + ·) ↔ a ≤ p ∧ p < a + n := by
  simp only [List.mem_map, List.mem_range]
  constructor
  · rintro ⟨i, hi, rfl⟩; omega
  · rintro ⟨h1, h2⟩; exact ⟨p - a, by omega, by omega⟩

/-- `new(DxValue)`. -/
theorem new_spec {h : Heap} (I : Inv h) (n : Node) (ho : ∀ c, n.owner = some c → c < h.nextC) :
    let r := h.new n
    Grows h r.2 ∧ Avail h r.1 ∧ ¬Avail r.2 r.1 ∧ 5 ≤ r.1 ∧ r.2.mem r.1 = n ∧ r.2.next = h.next + 1 := by
  have h5 := I.next5
  have hI := I.set h.next n (fun hp => by omega) ho
  refine ⟨⟨⟨?_, hI.const, hI.capPos, hI.lenLe, hI.nodup, ?_, hI.disj, hI.owner, hI.pool⟩, ?_, ?_, Nat.le_refl _, rfl⟩, Or.inl (Nat.le_refl _), ?_, h5, ?_, rfl⟩
  · simp only [Heap.new]; omega
  · intro c hc p hp
    have := I.range c hc p hp
    simp only [Heap.new]; omega
  · rintro q (h1 | h1)
    · simp only [Heap.new] at h1
      exact Or.inl (by omega)
    · exact Or.inr h1
  · intro q hq
    have : q ≠ h.next := fun e => hq (Or.inl (by omega))
    simp [Heap.new, Heap.set, this]
  · rintro (h1 | ⟨c, hc, hm⟩)
    · simp only [Heap.new] at h1; omega
    · have := (I.range c hc _ (List.mem_of_mem_drop hm)).2
      simp only [Heap.new] at this; omega
  · simp [Heap.new, Heap.set]

/-- A new cache. -/
theorem newCache_spec {h : Heap} (I : Inv h) (b : Bool) (l : Nat) (hl : l ≤ 8) :
    let r := newCache h b l
    Grows h r.2 ∧ r.1 = h.nextC ∧ r.2.nextC = h.nextC + 1 ∧ r.2.next = h.next + 8 ∧
    r.2.caches r.1 = ⟨b, (List.range 8).map (h.next + ·), l⟩ ∧
    (∀ c < h.nextC, r.2.caches c = h.caches c) ∧ (∀ q, h.next ≤ q → q < h.next + 8 → r.2.mem q = Node.zero) ∧
    r.2.grow = h.grow := by
  have h5 := I.next5
  have hlt : ∀ c, c < h.nextC → (c = h.nextC) = False := fun c hc => by simp; omega
  have hcs : ∀ c < h.nextC, (newCache h b l).2.caches c = h.caches c := by
    intro c hc
    simp [newCache, newSlots, Heap.setC, hlt c hc]
  have hcn : (newCache h b l).2.caches h.nextC = ⟨b, (List.range 8).map (h.next + ·), l⟩ := by
    simp [newCache, newSlots, Heap.setC]
  have hn : (newCache h b l).2.nextC = h.nextC + 1 := rfl
  have hx : (newCache h b l).2.next = h.next + 8 := rfl
  have hlast : ∀ c, c < h.nextC + 1 → c < h.nextC ∨ c = h.nextC := fun c hc => by omega
  have hmem : ∀ q, (newCache h b l).2.mem q = if h.next ≤ q ∧ q < h.next + 8 then Node.zero else h.mem q := fun _ => rfl
  refine ⟨⟨⟨?_, ?_, ?_, ?_, ?_, ?_, ?_, ?_, ?_⟩, ?_, ?_, ?_, rfl⟩, rfl, rfl, rfl, ?_, hcs, ?_, rfl⟩
  · rw [hx]; omega
  · intro p hp
    rw [hmem, if_neg (by omega)]
    exact I.const p hp
  · intro c hc
    rw [hn] at hc
    rcases hlast c hc with hc | rfl
    · rw [hcs c hc]; exact I.capPos c hc
    · rw [hcn]; simp
  · intro c hc
    rw [hn] at hc
    rcases hlast c hc with hc | rfl
    · rw [hcs c hc]; exact I.lenLe c hc
    · rw [hcn]; simpa using hl
  · intro c hc
    rw [hn] at hc
    rcases hlast c hc with hc | rfl
    · rw [hcs c hc]; exact I.nodup c hc
    · rw [hcn]; exact range_map_nodup _ _
  · intro c hc p hp
    rw [hn] at hc
    rw [hx]
    rcases hlast c hc with hc | rfl
    · rw [hcs c hc] at hp; have := I.range c hc p hp; omega
    · rw [hcn] at hp; have := mem_range_map.1 hp; omega
  · intro c hc d hd hne p hp
    rw [hn] at hc hd
    rcases hlast c hc with hc | rfl <;> rcases hlast d hd with hd | rfl
    · rw [hcs c hc] at hp; rw [hcs d hd]; exact I.disj c hc d hd hne p hp
    · rw [hcs c hc] at hp; rw [hcn]
      intro h2
      have := mem_range_map.1 h2
      have := I.range c hc p hp
      omega
    · rw [hcn] at hp; rw [hcs d hd]
      intro h2
      have := mem_range_map.1 hp
      have := I.range d hd p h2
      omega
    · exact absurd rfl hne
  · intro p c hc
    rw [hmem] at hc
    rw [hn]
    split at hc
    · simp [Node.zero] at hc
    · have := I.owner p c hc; omega
  · intro c hc
    have := I.pool c hc
    rw [hn]; omega
  · rintro q (h1 | ⟨c, hc, hm⟩)
    · rw [hx] at h1; exact Or.inl (by omega)
    · rw [hn] at hc
      rcases hlast c hc with hc | rfl
      · rw [hcs c hc] at hm; exact Or.inr ⟨c, hc, hm⟩
      · rw [hcn] at hm
        have := mem_range_map.1 (List.mem_of_mem_drop hm)
        exact Or.inl this.1
  · intro q hq
    rw [hmem, if_neg]
    rintro ⟨h1, -⟩
    exact hq (Or.inl h1)
  · rw [hn]; omega
  · rw [← hcn]; rfl
  · intro q h1 h2
    rw [hmem, if_pos ⟨h1, h2⟩]

/-- Growing a full cache. -/
theorem growCache_spec {h : Heap} (I : Inv h) {c : CId} (hc : c < h.nextC)
    (hfull : ¬(h.caches c).len < (h.caches c).slots.length) :
    let h' := growCache h c
    Grows h h' ∧ h'.nextC = h.nextC ∧ (h'.caches c).len = (h.caches c).len ∧ (h'.caches c).isroot = (h.caches c).isroot ∧
    (h'.caches c).len < (h'.caches c).slots.length ∧ (∀ d, d ≠ c → h'.caches d = h.caches d) ∧
    (∀ p ∈ (h'.caches c).slots, h.next ≤ p) ∧
    (∀ q, h'.mem q = h.mem q ∨ h'.mem q = Node.zero ∨ ∃ o ∈ (h.caches c).slots, h'.mem q = h.mem o) ∧ h'.grow = h.grow := by
  have h5 := I.next5
  have hl := I.lenLe c hc
  generalize hn : (h.caches c).slots.length = n at *
  have hlen : (h.caches c).len = n := by omega
  let cap := max (h.grow n) (n + 1)
  have hcap : n + 1 ≤ cap := Nat.le_max_right _ _
  have hx : (growCache h c).next = h.next + cap := by simp [growCache, Heap.setC, hn, cap]
  have hN : (growCache h c).nextC = h.nextC := rfl
  have hcc : (growCache h c).caches c = ⟨(h.caches c).isroot, (List.range cap).map (h.next + ·), n⟩ := by
    simp [growCache, Heap.setC, hn, cap, hlen]
  have hcs : ∀ d, d ≠ c → (growCache h c).caches d = h.caches d := by
    intro d hd; simp [growCache, Heap.setC, hd]
  have hmem : ∀ q, (growCache h c).mem q = if h.next ≤ q ∧ q < h.next + cap then
        (match (h.caches c).slots[q - h.next]? with | some o => h.mem o | none => Node.zero) else h.mem q := by
    intro q; simp only [growCache, Heap.setC, hn]; rfl
  have hmem3 : ∀ q, (growCache h c).mem q = h.mem q ∨ (growCache h c).mem q = Node.zero ∨
      ∃ o ∈ (h.caches c).slots, (growCache h c).mem q = h.mem o := by
    intro q
    rw [hmem]
    split
    · cases ho : (h.caches c).slots[q - h.next]? with
      | none => simp
      | some o => exact Or.inr (Or.inr ⟨o, List.mem_of_getElem? ho, rfl⟩)
    · exact Or.inl rfl
  refine ⟨⟨⟨?_, ?_, ?_, ?_, ?_, ?_, ?_, ?_, ?_⟩, ?_, ?_, ?_, rfl⟩, rfl, ?_, ?_, ?_, hcs, ?_, hmem3, rfl⟩
  · rw [hx]; omega
  · intro p hp
    rw [hmem, if_neg (by omega)]
    exact I.const p hp
  · intro d hd
    by_cases e : d = c
    · subst e; rw [hcc]; simp; omega
    · rw [hcs d e]; exact I.capPos d hd
  · intro d hd
    by_cases e : d = c
    · subst e; rw [hcc]; simp; omega
    · rw [hcs d e]; exact I.lenLe d hd
  · intro d hd
    by_cases e : d = c
    · subst e; rw [hcc]; exact range_map_nodup _ _
    · rw [hcs d e]; exact I.nodup d hd
  · intro d hd p hp
    rw [hx]
    by_cases e : d = c
    · subst e; rw [hcc] at hp; have := mem_range_map.1 hp; omega
    · rw [hcs d e] at hp; have := I.range d hd p hp; omega
  · intro d hd d2 hd2 hne p hp
    by_cases e : d = c
    · subst e
      rw [hcs d2 (Ne.symm hne)]
      rw [hcc] at hp
      intro h2
      have := mem_range_map.1 hp
      have := I.range d2 hd2 p h2
      omega
    · rw [hcs d e] at hp
      by_cases e2 : d2 = c
      · subst e2
        rw [hcc]
        intro h2
        have := mem_range_map.1 h2
        have := I.range d hd p hp
        omega
      · rw [hcs d2 e2]; exact I.disj d hd d2 hd2 hne p hp
  · intro p d hd
    rw [hN]
    rcases hmem3 p with h1 | h1 | ⟨o, -, h1⟩
    · rw [h1] at hd; exact I.owner p d hd
    · rw [h1] at hd; simp [Node.zero] at hd
    · rw [h1] at hd; exact I.owner o d hd
  · exact I.pool
  · rintro q (h1 | ⟨d, hd, hm⟩)
    · rw [hx] at h1; exact Or.inl (by omega)
    · by_cases e : d = c
      · subst e
        rw [hcc] at hm
        have := mem_range_map.1 (List.mem_of_mem_drop hm)
        exact Or.inl this.1
      · rw [hcs d e] at hm; exact Or.inr ⟨d, hd, hm⟩
  · intro q hq
    rw [hmem, if_neg]
    rintro ⟨h1, -⟩
    exact hq (Or.inl h1)
  · rw [hN]; exact Nat.le_refl _
  · rw [hcc, hlen]
  · rw [hcc]
  · rw [hcc]; simp; omega
  · intro p hp
    rw [hcc] at hp
    exact (mem_range_map.1 hp).1

theorem Grows.refl {h : Heap} (I : Inv h) : Grows h h := ⟨I, fun _ => id, fun _ _ => rfl, Nat.le_refl _, rfl⟩

theorem Grows.trans {h h1 h2 : Heap} (a : Grows h h1) (b : Grows h1 h2) : Grows h h2 :=
  ⟨b.inv, fun q hq => a.avail q (b.avail q hq), fun q hq => by rw [b.mem q (fun h => hq (a.avail q h)), a.mem q hq],
   Nat.le_trans a.nextC b.nextC, b.pool.trans a.pool⟩

/-- Taking the next slot of a cache that is not full. -/
theorem take_spec {h : Heap} (I : Inv h) {c : CId} (hc : c < h.nextC) (hlt : (h.caches c).len < (h.caches c).slots.length)
    (x : Cache) (hs : x.slots = (h.caches c).slots) (hlen : x.len = (h.caches c).len + 1) :
    let p := ((h.caches c).slots[(h.caches c).len]?).getD 0
    Grows h (h.setC c x) ∧ Avail h p ∧ ¬Avail (h.setC c x) p ∧ 5 ≤ p := by
  have hget : ((h.caches c).slots[(h.caches c).len]?).getD 0 = (h.caches c).slots[(h.caches c).len] := by
    simp [List.getElem?_eq_getElem hlt]
  have hd : ∀ d, (h.setC c x).caches d = if d = c then x else h.caches d := fun _ => rfl
  have hdrop : (h.caches c).slots.drop (h.caches c).len =
      (h.caches c).slots[(h.caches c).len] :: (h.caches c).slots.drop ((h.caches c).len + 1) :=
    List.drop_eq_getElem_cons hlt
  have hwas : Avail h (((h.caches c).slots[(h.caches c).len]?).getD 0) := by
    rw [hget]
    refine Or.inr ⟨c, hc, ?_⟩
    rw [hdrop]; exact List.mem_cons_self
  have hslots : ∀ d, ((h.setC c x).caches d).slots = (h.caches d).slots := by
    intro d; rw [hd]; split
    · rename_i e; rw [e, hs]
    · rfl
  refine ⟨⟨⟨I.next5, I.const, ?_, ?_, ?_, ?_, ?_, I.owner, I.pool⟩, ?_, fun _ _ => rfl, Nat.le_refl _, rfl⟩, hwas, ?_, I.avail_ge hwas⟩
  · intro d hd'; rw [hslots]; exact I.capPos d hd'
  · intro d hd'
    rw [hslots, hd]; split
    · rename_i e; subst e; rw [hlen]; omega
    · exact I.lenLe d hd'
  · intro d hd'; rw [hslots]; exact I.nodup d hd'
  · intro d hd'; rw [hslots]; exact I.range d hd'
  · intro d hd' e he; rw [hslots, hslots]; exact I.disj d hd' e he
  · rintro q (h1 | ⟨d, hd', hm⟩)
    · exact Or.inl h1
    · rw [hslots, hd] at hm
      split at hm
      · rename_i e; subst e
        refine Or.inr ⟨d, hd', ?_⟩
        rw [hdrop]
        rw [hlen] at hm
        exact List.mem_cons_of_mem _ hm
      · exact Or.inr ⟨d, hd', hm⟩
  · rw [hget]
    have hmem : (h.caches c).slots[(h.caches c).len] ∈ (h.caches c).slots := List.getElem_mem hlt
    rintro (h1 | ⟨d, hd', hm⟩)
    · have := (I.range c hc _ hmem).2
      exact absurd h1 (Nat.not_le.2 this)
    · rw [hslots, hd] at hm
      split at hm
      · rename_i e; subst e
        have := (I.nodup d hc).sublist (List.drop_sublist (h.caches d).len _)
        rw [hdrop, List.nodup_cons] at this
        rw [hlen] at hm
        exact this.1 hm
      · rename_i e
        exact I.disj c hc d hd' (Ne.symm e) _ hmem (List.mem_of_mem_drop hm)

theorem Allocated.write {h h1 : Heap} {p : Ptr} {n : Node} {t : VT} (g : Grows h h1) (hw : Avail h p)
    (hn : ¬Avail h1 p) (hge : 5 ≤ p) (hb : Blank n t) (ho : ∀ c, n.owner = some c → c < h1.nextC) :
    Allocated h p (h1.set p n) t where
  inv := g.inv.set p n (fun h => by omega) ho
  avail q hq := g.avail q hq
  mem q hq := by
    have : q ≠ p := fun e => hq (e ▸ hw)
    rw [set_mem_ne _ _ this, g.mem q hq]
  nextC := g.nextC
  pool := g.pool
  was := hw
  isnt := hn
  ge := hge
  blank := by simpa using hb

theorem heap_ext {h h' : Heap} (a : h.mem = h'.mem) (b : h.next = h'.next) (c : h.caches = h'.caches)
    (d : h.nextC = h'.nextC) (e : h.pool = h'.pool) (f : h.grow = h'.grow) : h = h' := by
  cases h; cases h'; simp_all

/-- The cached branch of `getValue` in one write. -/
theorem getValue_some (h : Heap) (c : CId) (t : VT) (I : Inv h) (hc : c < h.nextC) :
    ∃ h1 p, Grows h h1 ∧ c < h1.nextC ∧ (h1.caches c).len < (h1.caches c).slots.length ∧
      p = ((h1.caches c).slots[(h1.caches c).len]?).getD 0 ∧
      (h1 = if (h.caches c).len < (h.caches c).slots.length then h else growCache h c) ∧
      getValue h (some c) t = (p, (h1.setC c { (h1.caches c) with len := (h1.caches c).len + 1, isroot := false }).set p
        { (h1.mem p).reset t with owner := if (h1.caches c).isroot then some c else (h1.mem p).owner }) := by
  have key : ∀ h1 : Heap, Inv h1 → c < h1.nextC → (h1.caches c).len < (h1.caches c).slots.length →
      (h1 = if (h.caches c).len < (h.caches c).slots.length then h else growCache h c) → Grows h h1 →
      ∃ h1 p, Grows h h1 ∧ c < h1.nextC ∧ (h1.caches c).len < (h1.caches c).slots.length ∧
      p = ((h1.caches c).slots[(h1.caches c).len]?).getD 0 ∧
      (h1 = if (h.caches c).len < (h.caches c).slots.length then h else growCache h c) ∧
      getValue h (some c) t = (p, (h1.setC c { (h1.caches c) with len := (h1.caches c).len + 1, isroot := false }).set p
        { (h1.mem p).reset t with owner := if (h1.caches c).isroot then some c else (h1.mem p).owner }) := by
    intro h1 I1 hc1 hlt he g
    refine ⟨h1, _, g, hc1, hlt, rfl, he, ?_⟩
    have hp5 : 5 ≤ ((h1.caches c).slots[(h1.caches c).len]?).getD 0 := by
      have := (take_spec I1 hc1 hlt { (h1.caches c) with len := (h1.caches c).len + 1, isroot := false } rfl rfl).2.2.2
      exact this
    simp only [getValue, ← he]
    generalize ((h1.caches c).slots[(h1.caches c).len]?).getD 0 = p at *
    have hs : shared p = false := by simp [shared, hp5]
    simp only [Heap.reset, hs]
    split
    · rename_i hr
      refine Prod.ext rfl (heap_ext ?_ rfl ?_ rfl rfl rfl)
      · funext q
        by_cases e : q = p
        · subst e; simp [Heap.upd, Heap.set, Heap.setC]
        · simp [Heap.upd, Heap.set, Heap.setC, e]
      · funext d
        by_cases e : d = c
        · subst e; simp [Heap.upd, Heap.set, Heap.setC]
        · simp [Heap.upd, Heap.set, Heap.setC, e]
    · rename_i hr
      have hr : (h1.caches c).isroot = false := by simpa using hr
      refine Prod.ext rfl (heap_ext ?_ rfl ?_ rfl rfl rfl)
      · funext q
        by_cases e : q = p
        · subst e; simp [Heap.upd, Heap.set, Heap.setC, Node.reset]
        · simp [Heap.upd, Heap.set, Heap.setC, e]
      · funext d
        by_cases e : d = c
        · subst e; simp [Heap.upd, Heap.set, Heap.setC, hr]
        · simp [Heap.upd, Heap.set, Heap.setC, e]
  by_cases hlt : (h.caches c).len < (h.caches c).slots.length
  · exact key h I hc hlt (by rw [if_pos hlt]) (Grows.refl I)
  · obtain ⟨g, hn, hlen, hr, hl2, -⟩ := growCache_spec I hc hlt
    exact key (growCache h c) g.inv (by rw [hn]; exact hc) hl2 (by rw [if_neg hlt]) g

/-- `getValue` returns an unused node of the requested type, empty but for its scalar cell, and changes no other node. -/
theorem getValue_spec {h : Heap} (I : Inv h) (c : Option CId) (t : VT) (hc : ∀ d, c = some d → d < h.nextC) :
    Allocated h (getValue h c t).1 (getValue h c t).2 t := by
  cases c with
  | some c =>
    obtain ⟨h1, p, g, hc1, hlt, rfl, he, heq⟩ := getValue_some h c t I (hc c rfl)
    rw [heq]
    obtain ⟨g2, hw, hn, hge⟩ := take_spec g.inv hc1 hlt { (h1.caches c) with len := (h1.caches c).len + 1, isroot := false } rfl rfl
    refine Allocated.write (g.trans g2) (g.avail _ hw) hn hge ⟨rfl, rfl, rfl, rfl, rfl, rfl, rfl⟩ ?_
    intro d hd
    simp only at hd
    split at hd
    · cases hd; exact hc1
    · exact g.inv.owner _ _ hd
  | none =>
    obtain ⟨g, h1, h2, h3, h4, h5, h6, h7⟩ := newCache_spec I false 1 (by omega)
    have hp : (((newCache h false 1).2.caches (newCache h false 1).1).slots[0]?).getD 0 = h.next := by
      rw [h4]; rfl
    simp only [getValue, hp]
    refine Allocated.write g (Or.inl (Nat.le_refl _)) ?_ I.next5 ⟨rfl, rfl, rfl, rfl, rfl, rfl, rfl⟩ ?_
    · rintro (ha | ⟨d, hd, hm⟩)
      · rw [h3] at ha; omega
      · rw [h2] at hd
        rcases Nat.lt_succ_iff_lt_or_eq.1 hd with hd | rfl
        · rw [h5 d hd] at hm
          have := (I.range d hd _ (List.mem_of_mem_drop hm)).2
          omega
        · rw [← h1, h4] at hm
          simp [List.range, List.range.loop] at hm
    · intro d hd
      cases hd
      rw [h2, h1]; omega

/-- `NewValue` of a type without a constant. -/
theorem newValue_spec {h : Heap} (I : Inv h) (t : VT) (ht : constOf t = none) :
    Allocated h (newValue h t).1 (newValue h t).2 t := by
  obtain ⟨g, hw, hn, hge, hm, hx⟩ := new_spec I Node.zero (fun c hc => by simp [Node.zero] at hc)
  simp only [newValue, ht]
  refine ⟨⟨g.inv.reset _ _, ?_, ?_, ?_, ?_⟩, hw, ?_, hge, ?_⟩
  · intro q hq; exact g.avail q ((avail_reset _ _ _ _).1 hq)
  · intro q hq
    have : q ≠ (h.new Node.zero).1 := fun e => hq (e ▸ hw)
    rw [reset_mem_ne this]; exact g.mem q hq
  · simpa using g.nextC
  · simpa using g.pool
  · intro hq; exact hn ((avail_reset _ _ _ _).1 hq)
  · rw [reset_mem hge, hm]; exact Blank.reset _ _

/-- `NewValue` of a type with a constant returns the constant. -/
theorem newValue_const {h : Heap} (t : VT) {p : Ptr} (ht : constOf t = some p) : newValue h t = (p, h) := by
  simp [newValue, ht]

theorem constOf_const {t : VT} {p : Ptr} (ht : constOf t = some p) : p < 5 ∧ constVT p = t := by
  cases t <;> simp [constOf] at ht <;> subst ht <;> decide

end Dxs.Heap
