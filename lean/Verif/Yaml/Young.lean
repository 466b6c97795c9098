import Verif.Yaml.Model
import Verif.Heap.Prog

/-!
# The nodes a parser has made

Aliases (`*x`) can make the result a graph with shared nodes, so the trees of `Heap/Rep.lean` do not describe the state
of the parser. What always holds: the nodes made since the start have no nil child, their children are again such
nodes, there is no cycle, and no node is binary.
-/

namespace Dxs.Yaml

open Dxs.Heap

/-- Parent and child. -/
def KidOf (h : Heap) (r q : Ptr) : Prop := some r ∈ Node.kids (h.mem q)

/-- No node may have a nil child. -/
abbrev Full : Ptr → Prop := fun _ => False

/-- What the parser keeps true: `S` are the nodes handed out since `h0`, and the nodes `X` given at the start. While members are copied
into a node, that node (`Z`) has a nil child; otherwise `Z` is `Full`. -/
structure Young (Z : Ptr → Prop) (X : List Ptr) (h0 : Heap) (S : Ptr → Prop) (h : Heap) : Prop where
  inv : Inv h
  avail : ∀ q, Avail h q → Avail h0 q
  mem : ∀ q, ¬Avail h0 q → q ∉ X → h.mem q = h0.mem q
  ge : ∀ q, S q → 5 ≤ q
  new : ∀ q, S q → q ∈ X ∨ Avail h0 q
  live : ∀ q, S q → ¬Avail h q
  kids : ∀ q, S q → ∀ b ∈ Node.kids (h.mem q), (∃ r, b = some r ∧ S r) ∨ (b = none ∧ Z q)
  acc : ∀ q, S q → Acc (KidOf h) q
  bin : ∀ q, S q → (h.mem q).dt ≠ .binary

/-- A step of the parser. -/
structure Go (Z : Ptr → Prop) (X : List Ptr) (h0 : Heap) (S : Ptr → Prop) (h : Heap) (S' : Ptr → Prop) (h' : Heap) : Prop where
  young : Young Z X h0 S' h'
  sub : ∀ q, S q → S' q
  nextC : h.nextC ≤ h'.nextC

theorem Go.trans {Z : Ptr → Prop} {X : List Ptr} {h0 h h1 h2 : Heap} {S S1 S2 : Ptr → Prop} (a : Go Z X h0 S h S1 h1) (b : Go Z X h0 S1 h1 S2 h2) : Go Z X h0 S h S2 h2 :=
  ⟨b.young, fun q hq => b.sub q (a.sub q hq), Nat.le_trans a.nextC b.nextC⟩

theorem Young.refl {Z : Ptr → Prop} {X : List Ptr} {h0 h : Heap} {S : Ptr → Prop} (y : Young Z X h0 S h) : Go Z X h0 S h S h := ⟨y, fun _ => id, Nat.le_refl _⟩

theorem Young.kid {Z : Ptr → Prop} {X : List Ptr} {h0 h : Heap} {S : Ptr → Prop} (y : Young Z X h0 S h) (q : Ptr) (hq : S q) {r : Ptr}
    (hr : some r ∈ Node.kids (h.mem q)) : S r := by
  obtain ⟨x, hx, hS⟩ | ⟨hx, -⟩ := y.kids q hq _ hr
  · cases hx; exact hS
  · cases hx

theorem Young.isSome {X : List Ptr} {h0 h : Heap} {S : Ptr → Prop} (y : Young Full X h0 S h) (q : Ptr) (hq : S q) (b : Option Ptr)
    (hb : b ∈ Node.kids (h.mem q)) : ∃ r, b = some r ∧ S r :=
  (y.kids q hq b hb).elim id (fun h => h.2.elim)

theorem Young.weaken {Z : Ptr → Prop} {X : List Ptr} {h0 h : Heap} {S : Ptr → Prop} (y : Young Full X h0 S h) : Young Z X h0 S h :=
  { y with kids := fun q hq b hb => Or.inl (y.isSome q hq b hb) }

theorem Young.strong {Z : Ptr → Prop} {X : List Ptr} {h0 h : Heap} {S : Ptr → Prop} (y : Young Z X h0 S h) (hz : ∀ q, Z q → none ∉ Node.kids (h.mem q)) :
    Young Full X h0 S h :=
  { y with kids := fun q hq b hb => (y.kids q hq b hb).imp id (fun ⟨e, z⟩ => (hz q z (e ▸ hb)).elim) }

section
variable {Z : Ptr → Prop} {X : List Ptr} {h0 h : Heap} {S : Ptr → Prop}

theorem kids_blank {n : Node} {t : VT} (b : Blank n t) : Node.kids n = [] := by
  unfold Node.kids; split <;> simp [b.kvs, b.arr]

theorem kids_const {n : Node} (hn : 11 ≤ n.dt.ord) : Node.kids n = [] := by
  unfold Node.kids; split <;> simp_all [VT.ord]

/-- Adding an edge from `p` to `q`, when `q` cannot reach `p`. -/
theorem acc_add {R R' : Ptr → Ptr → Prop} {p q : Ptr} (P : Ptr → Prop) (hq : P q) (hp : ¬P p) (hcl : ∀ r x, P r → R x r → P x)
    (hR : ∀ x r, R' x r → R x r ∨ (r = p ∧ x = q)) (aq : Acc R q) : ∀ r, Acc R r → Acc R' r := by
  have hP : ∀ r, Acc R r → P r → Acc R' r := by
    intro r hr
    induction hr with
    | intro r _ ih =>
      intro h
      refine Acc.intro r (fun x hx => ?_)
      rcases hR x r hx with h1 | ⟨h1, -⟩
      · exact ih x h1 (hcl r x h h1)
      · exact absurd (h1 ▸ h) hp
  intro r hr
  induction hr with
  | intro r _ ih =>
    refine Acc.intro r (fun x hx => ?_)
    rcases hR x r hx with h1 | ⟨-, h1⟩
    · exact ih x h1
    · exact h1 ▸ hP q aq hq

/-- Writing a node, possibly with one more child. -/
theorem Young.put (y : Young Z X h0 S h) {p q : Ptr} (mp : S p) (mq : S q) {n : Node} (ho : n.owner = (h.mem p).owner) (hb : n.dt = (h.mem p).dt ∨ n.dt ≠ .binary)
    (P : Ptr → Prop) (hq : P q) (hp : ¬P p) (hcl : ∀ r x, P r → KidOf h x r → P x)
    (hk : ∀ b ∈ Node.kids n, b ∈ Node.kids (h.mem p) ∨ b = some q) : Go Z X h0 S h S (h.set p n) := by
  have h5 := y.ge p mp
  refine ⟨⟨?_, fun q hq => y.avail q hq, ?_, y.ge, y.new, fun q hq => y.live q hq, ?_, ?_, ?_⟩, fun _ => id, Nat.le_refl _⟩
  · exact y.inv.set p n (fun h => absurd h (by omega)) (fun c hc => y.inv.owner p c (ho ▸ hc))
  · intro r hr hX
    have : r ≠ p := by
      rintro rfl
      exact (y.new r mp).elim hX hr
    rw [set_mem_ne _ _ this]
    exact y.mem r hr hX
  · intro r mr b hb
    by_cases e : r = p
    · subst e
      rw [set_mem_same] at hb
      rcases hk b hb with h1 | h1
      · exact y.kids r mp b h1
      · exact Or.inl ⟨q, h1, mq⟩
    · rw [set_mem_ne _ _ e] at hb
      exact y.kids r mr b hb
  · intro r mr
    refine acc_add P hq hp hcl ?_ (y.acc q mq) r (y.acc r mr)
    intro x r hx
    unfold KidOf at hx ⊢
    by_cases e : r = p
    · subst e
      rw [set_mem_same] at hx
      rcases hk _ hx with h1 | h1
      · exact Or.inl h1
      · exact Or.inr ⟨rfl, by simpa using h1⟩
    · rw [set_mem_ne _ _ e] at hx
      exact Or.inl hx
  · intro r mr
    by_cases e : r = p
    · subst e
      rw [set_mem_same]
      exact hb.elim (fun h => by rw [h]; exact y.bin r mp) id
    · rw [set_mem_ne _ _ e]
      exact y.bin r mr

/-- Writing a node, possibly with a nil child more. -/
theorem Young.write0 (y : Young Z X h0 S h) {p : Ptr} (mp : S p) {n : Node} (ho : n.owner = (h.mem p).owner) (hb : n.dt = (h.mem p).dt ∨ n.dt ≠ .binary)
    (hk : ∀ b ∈ Node.kids n, b ∈ Node.kids (h.mem p) ∨ (b = none ∧ Z p)) : Go Z X h0 S h S (h.set p n) := by
  have h5 := y.ge p mp
  refine ⟨⟨?_, fun q hq => y.avail q hq, ?_, y.ge, y.new, fun q hq => y.live q hq, ?_, ?_, ?_⟩, fun _ => id, Nat.le_refl _⟩
  · exact y.inv.set p n (fun h => absurd h (by omega)) (fun c hc => y.inv.owner p c (ho ▸ hc))
  · intro r hr hX
    have : r ≠ p := by
      rintro rfl
      exact (y.new r mp).elim hX hr
    rw [set_mem_ne _ _ this]
    exact y.mem r hr hX
  · intro r mr b hb
    by_cases e : r = p
    · subst e
      rw [set_mem_same] at hb
      exact (hk b hb).elim (y.kids r mp b) Or.inr
    · rw [set_mem_ne _ _ e] at hb
      exact y.kids r mr b hb
  · intro r mr
    refine Subrelation.accessible ?_ (y.acc r mr)
    intro x r hx
    unfold KidOf at hx ⊢
    by_cases e : r = p
    · subst e
      rw [set_mem_same] at hx
      exact (hk _ hx).elim id (fun h => by cases h.1)
    · rw [set_mem_ne _ _ e] at hx
      exact hx
  · intro r mr
    by_cases e : r = p
    · subst e
      rw [set_mem_same]
      exact hb.elim (fun h => by rw [h]; exact y.bin r mp) id
    · rw [set_mem_ne _ _ e]
      exact y.bin r mr

/-- Writing a node without new children. -/
theorem Young.write (y : Young Z X h0 S h) {p : Ptr} (mp : S p) {n : Node} (ho : n.owner = (h.mem p).owner) (hb : n.dt = (h.mem p).dt ∨ n.dt ≠ .binary)
    (hk : ∀ b ∈ Node.kids n, b ∈ Node.kids (h.mem p)) : Go Z X h0 S h S (h.set p n) :=
  y.write0 mp ho hb (fun b hb => Or.inl (hk b hb))

theorem Young.upd (y : Young Z X h0 S h) {p : Ptr} (mp : S p) (f : Node → Node) (ho : (f (h.mem p)).owner = (h.mem p).owner)
    (hb : (f (h.mem p)).dt = (h.mem p).dt ∨ (f (h.mem p)).dt ≠ .binary) (hk : ∀ b ∈ Node.kids (f (h.mem p)), b ∈ Node.kids (h.mem p)) : Go Z X h0 S h S (h.upd p f) :=
  y.write mp ho hb hk

theorem Young.reset (y : Young Z X h0 S h) {p : Ptr} (mp : S p) (t : VT) (ht : t ≠ .binary := by decide) : Go Z X h0 S h S (reset h p t) := by
  have h5 := y.ge p mp
  unfold Heap.reset
  rw [if_neg (by rw [shared_iff]; omega)]
  exact y.upd mp _ rfl (Or.inr ht) (by rw [kids_blank (Blank.reset _ t)]; simp)

/-- One more node. -/
abbrev more (S : Ptr → Prop) (q : Ptr) : Ptr → Prop := fun r => S r ∨ r = q

/-- A node that was handed out. -/
theorem Young.alloc (y : Young Z X h0 S h) {q : Ptr} {h' : Heap} {t : VT} (a : Allocated h q h' t) (ht : t ≠ .binary) : Go Z X h0 S h (more S q) h' := by
  have hsame : ∀ r, S r → h'.mem r = h.mem r := fun r m => a.mem r (y.live r m)
  refine ⟨⟨a.inv, fun r hr => y.avail r (a.avail r hr), ?_, ?_, ?_, ?_, ?_, ?_, ?_⟩, fun _ => Or.inl, a.nextC⟩
  · intro r hr hX
    rw [a.mem r (fun h => hr (y.avail r h))]
    exact y.mem r hr hX
  · rintro r (hr | rfl)
    · exact y.ge r hr
    · exact a.ge
  · rintro r (hr | rfl)
    · exact y.new r hr
    · exact Or.inr (y.avail r a.was)
  · rintro r (hr | rfl)
    · exact fun h => y.live r hr (a.avail r h)
    · exact a.isnt
  · rintro r (hr | rfl) b hb
    · rw [hsame r hr] at hb
      exact (y.kids r hr b hb).imp (fun ⟨x, hx, hS⟩ => ⟨x, hx, Or.inl hS⟩) id
    · rw [kids_blank a.blank] at hb; simp at hb
  · have hold : ∀ r, Acc (KidOf h) r → S r → Acc (KidOf h') r := by
      intro r hr
      induction hr with
      | intro r _ ih =>
        intro hS
        refine Acc.intro r (fun x hx => ?_)
        unfold KidOf at hx
        rw [hsame r hS] at hx
        exact ih x hx (y.kid r hS hx)
    rintro r (hr | rfl)
    · exact hold r (y.acc r hr) hr
    · refine Acc.intro r (fun x hx => ?_)
      unfold KidOf at hx
      rw [kids_blank a.blank] at hx; simp at hx
  · rintro r (hr | rfl)
    · rw [hsame r hr]; exact y.bin r hr
    · rw [a.blank.dt]; exact ht

theorem Young.getValue (y : Young Z X h0 S h) {c : Option CId} (hc : ∀ d, c = some d → d < h.nextC) (t : VT) (ht : t ≠ .binary) :
    Go Z X h0 S h (more S (getValue h c t).1) (getValue h c t).2 := y.alloc (getValue_spec y.inv c t hc) ht

/-- A new node becomes a child. -/
theorem Young.getValue_put (y : Young Z X h0 S h) {c : Option CId} (hc : ∀ d, c = some d → d < h.nextC) (t : VT) (ht : t ≠ .binary) {p : Ptr} (mp : S p)
    (f : Ptr → Node → Node) (ho : ∀ q n, (f q n).owner = n.owner) (hdt : ∀ q n, (f q n).dt = n.dt)
    (hk : ∀ q b, b ∈ Node.kids (f q (h.mem p)) → b ∈ Node.kids (h.mem p) ∨ b = some q) :
    Go Z X h0 S h (more S (Heap.getValue h c t).1) ((Heap.getValue h c t).2.upd p (f (Heap.getValue h c t).1)) := by
  have a := getValue_spec y.inv c t hc
  have g := y.alloc a ht
  generalize Heap.getValue h c t = r at a g ⊢
  obtain ⟨q, h1⟩ := r
  simp only at a g ⊢
  have hne : q ≠ p := by
    rintro rfl
    exact y.live q mp a.was
  have e : h1.mem p = h.mem p := a.mem p (y.live p mp)
  refine g.trans (g.young.put (q := q) (Or.inl mp) (Or.inr rfl) (ho _ _) (Or.inl (hdt _ _)) (· = q) rfl (fun h => hne h.symm) ?_ ?_)
  · rintro r x rfl hx
    unfold KidOf at hx
    rw [kids_blank a.blank] at hx; simp at hx
  · rw [e]; exact hk q

theorem kids_dt {n : Node} (hd : n.dt = .object) : Node.kids n = n.kvs.map Prod.snd := by simp [Node.kids, hd]
theorem kids_dt_arr {n : Node} (hd : n.dt = .array) : Node.kids n = n.arr := by simp [Node.kids, hd]

theorem Young.toArr (y : Young Z X h0 S h) {p : Ptr} (mp : S p) :
    Go Z X h0 S h S (if (h.mem p).dt = .array then h else Heap.reset h p .array) ∧
      ((if (h.mem p).dt = .array then h else Heap.reset h p .array).mem p).dt = .array := by
  split
  · exact ⟨y.refl, by assumption⟩
  · exact ⟨y.reset mp .array, by rw [reset_mem (y.ge p mp)]; rfl⟩

theorem Young.toObj (y : Young Z X h0 S h) {p : Ptr} (mp : S p) :
    Go Z X h0 S h S (if (h.mem p).dt = .object then h else Heap.reset h p .object) ∧
      ((if (h.mem p).dt = .object then h else Heap.reset h p .object).mem p).dt = .object := by
  split
  · exact ⟨y.refl, by assumption⟩
  · exact ⟨y.reset mp .object, by rw [reset_mem (y.ge p mp)]; rfl⟩

theorem Go.young_lt {S' : Ptr → Prop} {h' : Heap} (g : Go Z X h0 S h S' h') {c : Option CId} (hc : ∀ d, c = some d → d < h.nextC) :
    ∀ d, c = some d → d < h'.nextC := fun d hd => Nat.lt_of_lt_of_le (hc d hd) g.nextC

theorem Young.setIndexCached (y : Young Z X h0 S h) {p : Ptr} (mp : S p) (idx : Int) (t : VT) (ht : t ≠ .binary) {c : Option CId} (hc : ∀ d, c = some d → d < h.nextC) :
    ∃ S', Go Z X h0 S h S' (Heap.setIndexCached h p idx t c).2 ∧ S' (Heap.setIndexCached h p idx t c).1 := by
  obtain ⟨g, hd⟩ := y.toArr mp
  unfold Heap.setIndexCached
  dsimp only
  generalize (if (h.mem p).dt = .array then h else Heap.reset h p .array) = h1 at g hd ⊢
  have y1 := g.young
  have hc1 := g.young_lt hc
  have hset : ∀ (i : Nat) (q : Ptr) (b : Option Ptr), b ∈ Node.kids { h1.mem p with arr := (h1.mem p).arr.set i (some q) } → b ∈ Node.kids (h1.mem p) ∨ b = some q := by
    intro i q b hb
    rw [kids_dt_arr (by exact hd)] at hb ⊢
    exact List.mem_or_eq_of_mem_set hb
  split
  · split
    · rename_i q hq
      have mq : S q := by
        have : some q ∈ Node.kids (h1.mem p) := by
          rw [kids_dt_arr hd]
          cases hx : (h1.mem p).arr[idx.toNat]? with
          | none => rw [hx] at hq; cases hq
          | some b => rw [hx] at hq; simp at hq; subst hq; exact List.mem_of_getElem? hx
        exact y1.kid p mp this
      split
      · rw [if_neg (by rw [shared_iff]; have := y1.ge q mq; omega)]
        exact ⟨S, g.trans (y1.reset mq t ht), mq⟩
      · exact ⟨S, g, mq⟩
    · exact ⟨_, g.trans (y1.getValue_put hc1 t ht mp (fun q n => { n with arr := n.arr.set idx.toNat (some q) }) (fun _ _ => rfl) (fun _ _ => rfl) (fun q b => hset _ q b)), Or.inr rfl⟩
  · refine ⟨_, g.trans (y1.getValue_put hc1 t ht mp (fun q n => { n with arr := n.arr ++ [some q] }) (fun _ _ => rfl) (fun _ _ => rfl) (fun q b hb => ?_)), Or.inr rfl⟩
    rw [kids_dt_arr (by exact hd)] at hb ⊢
    simpa using hb

/-- `objIndex` rewrites keys only. -/
theorem Young.objIndex (y : Young Z X h0 S h) (E : Env) {p : Ptr} (mp : S p) (hd : (h.mem p).dt = .object) (name : Bytes) :
    Go Z X h0 S h S (Heap.objIndex E h p name).2 ∧ ((Heap.objIndex E h p name).2.mem p).dt = .object ∧
      ∀ i, (Heap.objIndex E h p name).1 = some i → i < ((Heap.objIndex E h p name).2.mem p).kvs.length := by
  unfold Heap.objIndex
  dsimp only
  refine ⟨y.write mp rfl (Or.inl rfl) ?_, by simp [hd], ?_⟩
  · intro b hb
    rw [kids_dt hd]
    rw [kids_dt (by exact hd)] at hb
    rw [indexByName_snd] at hb
    exact hb
  · intro i hi
    rw [set_mem_same]
    simp only [indexByName_length]
    exact indexByName_lt E _ _ name hi

theorem kid_some (y : Young Full X h0 S h) {p : Ptr} (mp : S p) (hd : (h.mem p).dt = .object) {i : Nat} (hi : i < (h.mem p).kvs.length) :
    ∃ q, ((h.mem p).kvs[i]?).bind Prod.snd = some q ∧ S q := by
  obtain ⟨q, hq, hS⟩ := y.isSome p mp ((h.mem p).kvs[i]).2 (by rw [kids_dt hd]; exact List.mem_map_of_mem (List.getElem_mem hi))
  exact ⟨q, by rw [List.getElem?_eq_getElem hi]; exact hq, hS⟩

theorem Young.setKeyCached (y : Young Full X h0 S h) (E : Env) {p : Ptr} (mp : S p) (name : Bytes) (t : VT) (ht : t ≠ .binary) {c : Option CId} (hc : ∀ d, c = some d → d < h.nextC) :
    ∃ q h' S', Heap.setKeyCached E h p name t c = .ok (q, h') ∧ Go Full X h0 S h S' h' ∧ S' q := by
  unfold Heap.setKeyCached
  split
  · obtain ⟨S', g, hq⟩ := y.setIndexCached mp (strIdx E name) t ht (c := (h.mem p).owner) (fun d hd => y.inv.owner p d hd)
    exact ⟨_, _, S', rfl, g, hq⟩
  · obtain ⟨g, hd⟩ := y.toObj mp
    dsimp only
    generalize (if (h.mem p).dt = .object then h else Heap.reset h p .object) = h1 at g hd ⊢
    obtain ⟨g2, hd2, hlt⟩ := g.young.objIndex E mp hd name
    generalize Heap.objIndex E h1 p name = r at g2 hd2 hlt ⊢
    obtain ⟨i, h2⟩ := r
    simp only at g2 hd2 hlt ⊢
    have g2 := g.trans g2
    have y2 := g2.young
    have hc2 := g2.young_lt hc
    cases i with
    | none =>
      refine ⟨_, _, _, rfl, g2.trans (y2.getValue_put hc2 t ht mp (fun q n => { n with kvs := n.kvs ++ [(name, some q)] }) (fun _ _ => rfl) (fun _ _ => rfl) (fun q b hb => ?_)), Or.inr rfl⟩
      rw [kids_dt hd2]
      rw [kids_dt (by exact hd2)] at hb
      simpa using hb
    | some i =>
      obtain ⟨q, hq, mq⟩ := kid_some y2 mp hd2 (hlt i rfl)
      simp only [hq]
      rw [if_neg (by rw [shared_iff]; have := y2.ge q mq; omega)]
      split
      · exact ⟨_, _, S, rfl, g2.trans (y2.reset mq t ht), mq⟩
      · exact ⟨_, _, S, rfl, g2, mq⟩

theorem Young.setString (y : Young Full X h0 S h) {p : Ptr} (mp : S p) (s : Bytes) : Go Full X h0 S h S (Heap.setString h p s) := by
  unfold Heap.setString
  dsimp only
  split
  · exact y.upd mp _ rfl (Or.inl rfl) (fun _ h => h)
  · have g := y.reset mp .string
    exact g.trans (g.young.upd mp _ rfl (Or.inl rfl) (fun _ h => h))

theorem Young.setBool (y : Young Full X h0 S h) {p : Ptr} (mp : S p) (b : Bool) : Go Full X h0 S h S (Heap.setBool h p b) := by
  unfold Heap.setBool
  split
  · exact y.refl
  · split
    · exact y.reset mp .true
    · exact y.reset mp .false

theorem Young.setDouble (y : Young Full X h0 S h) {p : Ptr} (mp : S p) (x : F64) : Go Full X h0 S h S (Heap.setDouble h p x) := by
  unfold Heap.setDouble
  dsimp only
  split
  · exact y.refl
  · split
    · have g := y.reset mp .double
      exact g.trans (g.young.upd mp _ rfl (Or.inl rfl) (fun _ h => h))
    · exact y.upd mp _ rfl (Or.inl rfl) (fun _ h => h)

theorem Young.getString (y : Young Full X h0 S h) {p : Ptr} (mp : S p) (E : Env) (json : Res Bytes) :
    Go Full X h0 S h S (h.set p (Heap.getString E json (h.mem p)).2) := by
  refine y.write mp ?_ ?_ ?_
  · unfold Heap.getString; split <;> rfl
  · by_cases hr : (h.mem p).dt = .rawString
    · right; simp [Heap.getString, hr]
    · left; unfold Heap.getString
      split <;> first | rfl | contradiction
  · intro b hb
    by_cases hr : (h.mem p).dt = .rawString
    · simp [Heap.getString, hr, Node.kids] at hb
    · have e : (Heap.getString E json (h.mem p)).2 = h.mem p := by
        unfold Heap.getString
        split <;> first | rfl | contradiction
      rwa [e] at hb

/-- Adding a child made elsewhere. -/
theorem Young.setKeyValue (y : Young Full X h0 S h) (E : Env) {p q : Ptr} (mp : S p) (mq : S q) (name : Bytes) (P : Ptr → Prop) (hq : P q) (hp : ¬P p)
    (hcl : ∀ r x, P r → KidOf h x r → P x) : Go Full X h0 S h S (Heap.setKeyValue E h p name (some q)) := by
  have hother : ∀ {h' : Heap}, (∀ r, r ≠ p → h'.mem r = h.mem r) → ∀ r x, P r → KidOf h' x r → P x := by
    intro h' hm r x hr hx
    unfold KidOf at hx
    rw [hm r (by rintro rfl; exact hp hr)] at hx
    exact hcl r x hr hx
  unfold Heap.setKeyValue
  split
  · rename_i ha
    unfold Heap.setIndexValue
    rw [if_pos ha.1]
    dsimp only
    split
    · refine y.put mp mq rfl (Or.inl rfl) P hq hp hcl (fun b hb => ?_)
      rw [kids_dt_arr ha.1]
      rw [kids_dt_arr (by exact ha.1)] at hb
      exact List.mem_or_eq_of_mem_set hb
    · refine y.put mp mq rfl (Or.inl rfl) P hq hp hcl (fun b hb => ?_)
      rw [kids_dt_arr ha.1]
      rw [kids_dt_arr (by exact ha.1)] at hb
      simpa using hb
  · obtain ⟨g, hd⟩ := y.toObj mp
    dsimp only
    have hm1 : ∀ r, r ≠ p → (if (h.mem p).dt = .object then h else Heap.reset h p .object).mem r = h.mem r := by
      intro r hr
      split
      · rfl
      · exact reset_mem_ne hr _
    generalize (if (h.mem p).dt = .object then h else Heap.reset h p .object) = h1 at g hd hm1 ⊢
    obtain ⟨g2, hd2, hlt⟩ := g.young.objIndex E mp hd name
    have hm2 : ∀ r, r ≠ p → (Heap.objIndex E h1 p name).2.mem r = h1.mem r := fun r hr => set_mem_ne _ _ hr
    generalize Heap.objIndex E h1 p name = r at g2 hd2 hlt hm2 ⊢
    obtain ⟨i, h2⟩ := r
    simp only at g2 hd2 hlt hm2 ⊢
    have g2 := g.trans g2
    have y2 := g2.young
    have hcl2 := hother (h' := h2) (fun r hr => by rw [hm2 r hr, hm1 r hr])
    cases i with
    | none =>
      refine g2.trans (y2.put mp mq rfl (Or.inl rfl) P hq hp hcl2 (fun b hb => ?_))
      rw [kids_dt hd2]
      rw [kids_dt (by exact hd2)] at hb
      simpa using hb
    | some i =>
      refine g2.trans (y2.put mp mq rfl (Or.inl rfl) P hq hp hcl2 (fun b hb => ?_))
      rw [kids_dt hd2]
      rw [kids_dt (by exact hd2)] at hb
      simp only [modify_snd] at hb
      exact List.mem_or_eq_of_mem_set hb

end

end Dxs.Yaml
