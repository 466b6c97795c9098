import Verif.Heap.Mut
import Verif.Heap.Clone
import Verif.Heap.Example

/-!
# Programs with several values

A program keeps values in variables, works on any node of any of them, moves a value into another one and frees values.
The nodes are named by the variable and the positions of the members leading to them.
-/

namespace Dxs.Heap

/-- The memory and the variables. -/
structure St where
  heap : Heap
  var : Nat → Option Ptr

/-- One statement. -/
inductive Cmd where
  /-- `x = NewValue(t)` -/
  | newValue (i : Nat) (t : VT)
  /-- `x = NewCacheValue(t)`; `pick`: what the pool gives -/
  | newCached (i : Nat) (t : VT) (pick : Option Nat)
  /-- `x = NewObject(cached)` -/
  | newObject (i : Nat) (cached : Bool) (pick : Option Nat)
  /-- `x = NewArray(cached)` -/
  | newArray (i : Nat) (cached : Bool) (pick : Option Nat)
  /-- an operation on a node of `x` -/
  | act (i : Nat) (π : List Nat) (m : Mut)
  /-- `node.SetKeyValue(k, y)`; `y` is not used on its own afterwards -/
  | putKey (i : Nat) (π : List Nat) (k : Bytes) (j : Nat)
  /-- `node.SetIndexValue(n, y)`; `y` is not used on its own afterwards -/
  | putIndex (i : Nat) (π : List Nat) (n : Int) (j : Nat)
  /-- `x.Clear()` -/
  | clear (i : Nat)
  /-- `FreeValue(x)`, `1 + again` times in a row -/
  | free (i : Nat) (again : Nat)
  /-- `x = nil` -/
  | forget (i : Nat)
  /-- `x = node.Clone(cached)`; `f` bounds the depth -/
  | clone (i j : Nat) (π : List Nat) (cached : Bool) (pick : Option Nat) (f : Nat)
  /-- `node.CopyFrom(node', nil)` -/
  | copyFrom (i : Nat) (π : List Nat) (j : Nat) (ρ : List Nat) (f : Nat)
  /-- `node.AddFrom(node', nil)` -/
  | addFrom (i : Nat) (π : List Nat) (j : Nat) (ρ : List Nat) (f : Nat)

/-- The node at a position. Walking into nothing panics. -/
def St.walk (s : St) (i : Nat) (π : List Nat) : Res Ptr :=
  match (s.var i).bind (fun p => ptrAt s.heap.mem (some p) π) with
  | some (some q) => .ok q
  | _ => .panic

/-- `FreeValue` several times. -/
def freeN (h : Heap) (p : Ptr) : Nat → Heap
  | 0 => h
  | n + 1 => freeN (freeValue h (some p)) p n

/-- Store the created value. -/
def St.store (s : St) (i : Nat) (r : Ptr × Heap) : St := ⟨r.2, assign s.var i (some r.1)⟩

/-- Perform a statement. Operations on the shared constants (`ReadOnly`, dxvalue.go:891-893) and storing a value inside
itself are left out: the statement does nothing then. Left out as well: copying a value with a node of its own of type
True, False, NAN or INF (which `clone` does not copy), copying within one value, and `AddFrom` between different types. -/
def Cmd.exec (E : Env) (s : St) : Cmd → Res St
  | .newValue i t => .ok (s.store i (Heap.newValue s.heap t))
  | .newCached i t pick => .ok (s.store i (newCacheValue s.heap t pick))
  | .newObject i c pick => .ok (s.store i (Heap.newObject s.heap c pick))
  | .newArray i c pick => .ok (s.store i (Heap.newArray s.heap c pick))
  | .act i π m => do
    let q ← s.walk i π
    if shared q then .ok s
    else do
      let h ← m.run E s.heap q
      .ok { s with heap := h }
  | .putKey i π k j => do
    let q ← s.walk i π
    if shared q || i == j then .ok s
    else .ok ⟨setKeyValue E s.heap q k (s.var j), assign s.var j none⟩
  | .putIndex i π n j => do
    let q ← s.walk i π
    if shared q || i == j then .ok s
    else .ok ⟨setIndexValue s.heap q n (s.var j), assign s.var j none⟩
  | .clear i => do
    let q ← s.walk i []
    if shared q then .ok s else .ok { s with heap := Heap.clear s.heap q }
  | .free i n => do
    let q ← s.walk i []
    if shared q then .ok s else .ok ⟨freeN s.heap q (n + 1), assign s.var i none⟩
  | .forget i => .ok { s with var := assign s.var i none }
  | .clone i j π cached pick f => do
    let q ← s.walk j π
    if copyable f s.heap.mem (some q) then do
      let r ← cloneTop f s.heap q cached pick
      .ok (s.store i r)
    else .ok s
  | .copyFrom i π j ρ f => do
    let p ← s.walk i π
    let q ← s.walk j ρ
    if shared p || i == j || !copyable f s.heap.mem (some q) then .ok s
    else do
      let h ← Heap.copyFrom f s.heap p (some q) none
      .ok { s with heap := h }
  | .addFrom i π j ρ f => do
    let p ← s.walk i π
    let q ← s.walk j ρ
    if shared p || i == j || !copyable f s.heap.mem (some q) || (s.heap.mem p).dt ≠ (s.heap.mem q).dt then .ok s
    else do
      let h ← Heap.addFrom f s.heap p (some q) none
      .ok { s with heap := h }

/-- The variables a statement changes. -/
def Cmd.vars : Cmd → List Nat
  | .newValue i _ | .newCached i _ _ | .newObject i _ _ | .newArray i _ _ | .act i _ _ | .clear i | .free i _ | .forget i => [i]
  | .clone i _ _ _ _ _ | .copyFrom i _ _ _ _ | .addFrom i _ _ _ _ => [i]
  | .putKey i _ _ j | .putIndex i _ _ j => [i, j]

/-- A program. -/
def execAll (E : Env) : St → List Cmd → Res St
  | s, [] => .ok s
  | s, c :: cs => do
    let s ← c.exec E s
    execAll E s cs

/-- The start: no values. -/
def St.init (grow : Nat → Nat) : St := ⟨Heap.init grow, fun _ => none⟩

/-! ## The invariant -/

/-- `L` describes the values in the variables. -/
structure Sound (s : St) (L : Nat → Option Live) : Prop where
  world : WInv s.heap L
  vnone : ∀ i, s.var i = none → L i = none
  vsome : ∀ i p, s.var i = some p → (p < 5 ∧ L i = none) ∨ ∃ x, L i = some x ∧ x.p = p

theorem Sound.init (grow : Nat → Nat) : Sound (St.init grow) (fun _ => none) where
  world := ⟨inv_init grow, ⟨fun q hq => rfl, fun c hc => absurd hc (by simp [St.init, Heap.init]), fun c hc => absurd hc (by simp [St.init, Heap.init]),
    fun c hc => absurd hc (by simp [St.init, Heap.init])⟩, by simp [St.init, Heap.init], by simp [St.init, Heap.init], by simp, by simp⟩
  vnone := by simp
  vsome := by simp [St.init]

/-- The variables and values not mentioned stay. -/
structure Keeps (s s' : St) (L L' : Nat → Option Live) (k : Nat) : Prop where
  live : L' k = L k
  var : s'.var k = s.var k
  mem : ∀ x, L k = some x → ∀ q ∈ x.F, s'.heap.mem q = s.heap.mem q

theorem rep_kids_len {m : Ptr → Node} {v : Val} {p : Ptr} {F : List Ptr} (hr : Rep m v (some p) F) : (Node.kids (m p)).length = (Val.kids v).length := by
  cases v with
  | nil => exact absurd rfl (rep_ne_nil hr)
  | obj ku kvs =>
    obtain ⟨p', F', e, -, -, hd, -, hm⟩ := hr
    cases e
    rw [kids_obj hd]
    have := congrArg List.length (repM_iff.1 hm).1
    simpa [Val.kids] using this
  | arr xs =>
    obtain ⟨p', F', e, -, -, hd, hm⟩ := hr
    cases e
    rw [kids_arr hd]
    simpa [Val.kids] using repL_length hm
  | _ =>
    have hd := rep_dt hr
    simp only [Val.vt] at hd
    simp [Node.kids, hd, Val.kids]

/-- Every position the program can walk to is a position of the tree. -/
theorem rep_walk {m : Ptr → Node} : ∀ {π : List Nat} {v : Val} {a : Option Ptr} {F : List Ptr} {b : Option Ptr}, Rep m v a F →
    ptrAt m a π = some b → ∃ w, Val.sub v π = some w
  | [], v, a, F, b, _, _ => ⟨v, rfl⟩
  | i :: π, v, a, F, b, hr, hb => by
    cases a with
    | none => cases hb
    | some p =>
      simp only [ptrAt, Option.bind_eq_some_iff] at hb
      obtain ⟨c, hc, hb⟩ := hb
      have hi : i < (Val.kids v).length := by
        rw [← rep_kids_len hr]; exact (List.getElem?_eq_some_iff.1 hc).1
      obtain ⟨p', q, F1, Fi, F2, e, -, hq, -, h2, -⟩ := repL_kid hr (List.getElem?_eq_getElem hi)
      cases e
      rw [hc] at hq; cases hq
      obtain ⟨w, hw⟩ := rep_walk h2 hb
      exact ⟨w, by simp [Val.sub, List.getElem?_eq_getElem hi, hw]⟩

theorem Sound.walk {s : St} {L : Nat → Option Live} (S : Sound s L) {i : Nat} {π : List Nat} {q : Ptr} (e : s.walk i π = .ok q) (h5 : 5 ≤ q) :
    ∃ x w Fq, L i = some x ∧ (π = [] → x.p = q) ∧ Good s.heap (some q) w Fq ∧ (∀ r ∈ Fq, r ∈ x.F) ∧
      ∀ X h' w' Fq', UpdX X s.heap Fq h' (some q) w' Fq' → (∀ r ∈ X, r ∉ x.F) → ∃ v' F', UpdX X s.heap x.F h' (some x.p) v' F' := by
  unfold St.walk at e
  split at e
  · rename_i q' hq
    cases e
    obtain ⟨p, hp, hq⟩ := Option.bind_eq_some_iff.1 hq
    rcases S.vsome i p hp with ⟨hlt, -⟩ | ⟨x, hx, rfl⟩
    · exfalso
      have hd := S.world.inv.const p hlt
      cases π with
      | nil => cases hq; omega
      | cons i π =>
        simp only [ptrAt, Option.bind_eq_some_iff] at hq
        obtain ⟨c, hc, -⟩ := hq
        have : Node.kids (s.heap.mem p) = [] := by
          have : p = 0 ∨ p = 1 ∨ p = 2 ∨ p = 3 ∨ p = 4 := by omega
          generalize s.heap.mem p = n at hd
          rcases this with rfl | rfl | rfl | rfl | rfl <;> simp [constVT, nullP, trueP, falseP, nanP, infP] at hd <;> simp [Node.kids, hd]
        rw [this] at hc; cases hc
    · obtain ⟨v, g⟩ := (S.world.held i x hx).good
      obtain ⟨w, hw⟩ := rep_walk g.rep hq
      obtain ⟨b, Fq, hb, gb, hsub, hup⟩ := g.inside hw
      rw [hq] at hb; cases hb
      refine ⟨x, w, Fq, hx, ?_, gb, hsub, fun X h' w' Fq' u hX => ?_⟩
      · rintro rfl; cases hq; rfl
      · obtain ⟨R', u'⟩ := hup X h' w' Fq' u hX
        exact ⟨_, R', u'⟩
  · cases e

theorem getCache_mem {h : Heap} (I : Inv h) (pick : Option Nat) {q : Ptr} (hq : ¬Avail h q) : (getCache h pick).2.mem q = h.mem q := by
  unfold getCache
  split
  · exact (newCache_spec I true 0 (by omega)).1.mem q hq
  · rfl

theorem clear_mem_ne {h : Heap} {p q : Ptr} (hq : q ≠ p) : (Heap.clear h p).mem q = h.mem q := by
  unfold Heap.clear
  dsimp only
  rw [Heap.upd, set_mem_ne _ _ hq]
  split <;> rfl

theorem freeValue_mem_ne {h : Heap} {p q : Ptr} (hq : q ≠ p) : (freeValue h (some p)).mem q = h.mem q := by
  unfold freeValue
  dsimp only
  split
  · rw [Heap.upd, set_mem_ne _ _ hq, clear_mem_ne hq]
  · simp only [Heap.cacheReset, Heap.setC]
    rw [Heap.upd, set_mem_ne _ _ hq, clear_mem_ne hq]

theorem Node.clear_clear (n : Node) : n.clear.clear = n.clear := by
  unfold Node.clear
  cases h : n.dt <;> simp

/-- `FreeValue` a second time does nothing. -/
theorem freeValue_twice (h : Heap) (p : Ptr) : freeValue (freeValue h (some p)) (some p) = freeValue h (some p) := by
  have key : ∀ h : Heap, h.mem p = { (h.mem p).clear with owner := none } → freeValue h (some p) = h := by
    intro h hm
    have ho : (h.mem p).owner = none := by rw [hm]
    have hc : (h.mem p).clear = h.mem p := by
      rw [hm]
      unfold Node.clear
      cases hd : (h.mem p).dt <;> simp
    unfold freeValue Heap.clear
    simp only [ho, Heap.upd, hc, set_self, set_mem_same]
    have : ({ h.mem p with owner := none } : Node) = h.mem p := by
      generalize h.mem p = n at ho; cases n; simp at ho; simp [ho]
    rw [this, set_self]
  apply key
  have hmem : (freeValue h (some p)).mem p = { (h.mem p).clear with owner := none } := by
    unfold freeValue Heap.clear
    dsimp only
    split <;> (split <;> simp [Heap.cacheReset, Heap.setC])
  rw [hmem]
  unfold Node.clear
  cases hd : (h.mem p).dt <;> simp

theorem freeN_eq (h : Heap) (p : Ptr) (n : Nat) : freeN h p (n + 1) = freeValue h (some p) := by
  induction n generalizing h with
  | zero => rfl
  | succ n ih => rw [freeN, ih, freeValue_twice]

theorem getValue_root {h : Heap} (I : Inv h) {c : CId} (hc : c < h.nextC) (t : VT) : ((getValue h (some c) t).2.caches c).isroot = false := by
  obtain ⟨h1, p, -, -, -, -, -, e⟩ := getValue_some h c t I hc
  rw [e]; simp [Heap.setC]

theorem getCache_avail {h : Heap} (I : Inv h) (pick : Option Nat) : ∀ q, Avail (getCache h pick).2 q → Avail h q := by
  intro q hq
  unfold getCache at hq
  split at hq
  · exact (newCache_spec I true 0 (by omega)).1.avail q hq
  · obtain hq | ⟨d, hd, hm⟩ := hq
    · exact Or.inl hq
    · refine Or.inr ⟨d, hd, ?_⟩
      simp only [Heap.setC] at hm
      split at hm
      · rename_i e; subst e; exact hm
      · exact hm

theorem clone_root (f : Nat) {h : Heap} (I : Inv h) {c : CId} (hc : c < h.nextC) {q : Ptr} {w : Val} {G : List Ptr} (g : Good h (some q) w G) (hG : Copyable h G)
    {r : Ptr × Heap} (e : clone f h (some q) (some c) = .ok r) (h5 : 5 ≤ r.1) : (r.2.caches c).isroot = false := by
  cases f with
  | zero => cases e
  | succ f =>
    unfold clone at e
    split at e
    · rename_i h11
      cases e
      have := hG q (rep_mem g.rep h5)
      omega
    · have A := getValue_spec I (some c) (h.mem q).dt (by intro d hd; cases hd; exact hc)
      have hr := getValue_root I hc (h.mem q).dt
      have hn := A.nextC
      have I1 := A.inv
      generalize getValue h (some c) (h.mem q).dt = s at e A hr hn I1
      obtain ⟨p, h1⟩ := s
      simp only at e hr hn I1
      have hc1 : c < h1.nextC := Nat.lt_of_lt_of_le hc hn
      have key : ∀ {h2 : Heap}, Step (fun _ => True) h1 h2 → (h2.caches c).isroot = false :=
        fun s => not_root s (Nat.lt_of_lt_of_le hc1 s.nextC) (fun _ => hr)
      have hrec : ∀ h, Inv h → h1.nextC ≤ h.nextC → ∀ a q h', clone f h a (some c) = .ok (q, h') → Step (fun _ => True) h h' :=
        fun h I hn a q h' e => I.clone_st f (some c) (by intro d hd; cases hd; omega) (by simp) e
      split at e
      · cases e; dsimp only; refine key (I1.upd_st p _ ?_); intro n; exact ⟨rfl, rfl⟩
      · cases e; dsimp only; refine key (I1.upd_st p _ ?_); intro n; exact ⟨rfl, rfl⟩
      · cases e; dsimp only; refine key (I1.upd_st p _ ?_); intro n; exact ⟨rfl, rfl⟩
      · cases e; dsimp only; refine key (I1.upd_st p _ ?_); intro n; exact ⟨rfl, rfl⟩
      · cases e; dsimp only; refine key (I1.upd_st p _ ?_); intro n; exact ⟨rfl, rfl⟩
      · cases e; dsimp only; refine key (I1.upd_st p _ ?_); intro n; exact ⟨rfl, rfl⟩
      · rw [Res.bind_eq_ok] at e
        obtain ⟨h2, e2, e⟩ := e
        cases e
        have s1 := I1.upd_st (X := fun _ => True) p (fun m => { m with ku := (h1.mem q).ku }) (by intro n; exact ⟨rfl, rfl⟩)
        exact key (s1.trans (cloneM_st (m := h1.nextC) hrec p _ s1.inv (by simp) e2))
      · rw [Res.bind_eq_ok] at e
        obtain ⟨h2, e2, e⟩ := e
        cases e
        exact key (cloneL_st (m := h1.nextC) hrec p _ I1 (by simp) e2)
      · cases e; exact hr

theorem assign_keep {α : Type} {L : Nat → Option α} {i k : Nat} {x : Option α} (hk : k ≠ i) : assign L i x k = L k := assign_ne L x hk

/-- The constants are trees. -/
theorem const_tree {h : Heap} (I : Inv h) {p : Ptr} (hp : p < 5) : ∃ w, Good h (some p) w [] := by
  have hd := I.const p hp
  have hv : (view h.mem p).dt = constVT p := by rw [view_dt]; exact hd
  have hf : ([] : List Ptr) = foot p := by simp [foot, hp]
  have : p = 0 ∨ p = 1 ∨ p = 2 ∨ p = 3 ∨ p = 4 := by omega
  have hl : ∃ w, leafOf (view h.mem p) = some w := by
    generalize view h.mem p = n at hv
    rcases this with rfl | rfl | rfl | rfl | rfl <;> simp [constVT, nullP, trueP, falseP, nanP] at hv <;> simp [leafOf, hv]
  obtain ⟨w, hl⟩ := hl
  exact ⟨w, I, (rep_leaf (leafOf_isLeaf hl).1 _ _).2 ⟨p, rfl, hf, hl⟩, by simp, by simp⟩

section
variable {s : St} {L : Nat → Option Live}

/-- A new value is stored. -/
theorem Sound.store (S : Sound s L) (i : Nat) {h1 : Heap} (W : WInv h1 L) (hm : ∀ k x, L k = some x → ∀ q ∈ x.F, h1.mem q = s.heap.mem q) (cs : List CId)
    (hcs : ∀ c ∈ cs, c < h1.nextC ∧ c ∉ h1.pool ∧ ∀ j y, L j = some y → c ∉ y.cs) {r : Ptr × Heap} {t : VT} (A : Allocated h1 r.1 r.2 t)
    (st : Step (fun d => d ∈ cs ∨ h1.nextC ≤ d) h1 r.2) (hroot : ∀ c ∈ cs, (r.2.caches c).isroot = false) :
    ∃ L', Sound (s.store i r) L' ∧ ∀ k, k ≠ i → Keeps s (s.store i r) L L' k := by
  have W' := W.create i cs hcs A.ge A.good (A.toGrows.frame []) (by intro q hq; simp at hq; subst hq; exact A.was) st hroot
  refine ⟨_, ⟨W', ?_, ?_⟩, ?_⟩
  · intro k hk
    by_cases e : k = i
    · subst e; simp [St.store, assign_same] at hk
    · rw [assign_ne _ _ e]; simp only [St.store, assign_ne _ _ e] at hk; exact S.vnone k hk
  · intro k p hk
    by_cases e : k = i
    · subst e; simp only [St.store, assign_same, Option.some.injEq] at hk
      exact Or.inr ⟨_, assign_same _ _ _, hk⟩
    · rw [assign_ne _ _ e]; simp only [St.store, assign_ne _ _ e] at hk; exact S.vsome k p hk
  · intro k hk
    refine ⟨assign_ne _ _ hk, assign_ne _ _ hk, fun x hx q hq => ?_⟩
    obtain ⟨v, g⟩ := (W.held k x hx).good
    rw [show (s.store i r).heap = r.2 from rfl, A.mem q (g.live q hq), hm k x hx q hq]

/-- A variable gets a constant or nothing, in a new memory. -/
theorem Sound.setConst' (S : Sound s L) (i : Nat) (a : Option Ptr) (ha : ∀ p, a = some p → p < 5) {h1 : Heap} (W : WInv h1 L)
    (hm : ∀ k x, L k = some x → ∀ q ∈ x.F, h1.mem q = s.heap.mem q) :
    ∃ L', Sound ⟨h1, assign s.var i a⟩ L' ∧ ∀ k, k ≠ i → Keeps s ⟨h1, assign s.var i a⟩ L L' k := by
  refine ⟨_, ⟨W.drop i, ?_, ?_⟩, fun k hk => ⟨assign_ne _ _ hk, assign_ne _ _ hk, fun x hx q hq => hm k x hx q hq⟩⟩
  · intro k hk
    by_cases e : k = i
    · subst e; exact assign_same _ _ _
    · rw [assign_ne _ _ e]; simp only [assign_ne _ _ e] at hk; exact S.vnone k hk
  · intro k p hk
    by_cases e : k = i
    · subst e; simp only [assign_same] at hk; exact Or.inl ⟨ha p hk, assign_same _ _ _⟩
    · rw [assign_ne _ _ e]; simp only [assign_ne _ _ e] at hk; exact S.vsome k p hk

/-- A new tree is stored. -/
theorem Sound.made (S : Sound s L) (i : Nat) {h1 : Heap} (W : WInv h1 L) (hm : ∀ k x, L k = some x → ∀ q ∈ x.F, h1.mem q = s.heap.mem q) (cs : List CId)
    (hcs : ∀ c ∈ cs, c < h1.nextC ∧ c ∉ h1.pool ∧ ∀ j y, L j = some y → c ∉ y.cs) {r : Ptr × Heap} {v : Val} {F : List Ptr} (M : Made h1 r.1 r.2 v F)
    (st : Step (fun d => d ∈ cs ∨ h1.nextC ≤ d) h1 r.2) (hroot : 5 ≤ r.1 → ∀ c ∈ cs, (r.2.caches c).isroot = false) :
    ∃ L', Sound (s.store i r) L' ∧ ∀ k, k ≠ i → Keeps s (s.store i r) L L' k := by
  have hk : ∀ k x, L k = some x → ∀ q ∈ x.F, r.2.mem q = s.heap.mem q := by
    intro k x hx q hq
    obtain ⟨v, g⟩ := (W.held k x hx).good
    rw [M.frame.mem q (rep_ge g.rep q hq) (by simp) (g.live q hq), hm k x hx q hq]
  rcases Nat.lt_or_ge r.1 5 with h5 | h5
  · refine S.setConst' i (some r.1) (by intro p hp; cases hp; exact h5) (W.pass M.frame st ?_) hk
    rintro c hc (h | h)
    · exact (hcs c h).2.1 hc
    · have := W.inv.pool c hc; omega
  have W' := W.create i cs hcs h5 M.good M.frame M.fresh st (hroot h5)
  refine ⟨_, ⟨W', ?_, ?_⟩, ?_⟩
  · intro k hk
    by_cases e : k = i
    · subst e; simp [St.store, assign_same] at hk
    · rw [assign_ne _ _ e]; simp only [St.store, assign_ne _ _ e] at hk; exact S.vnone k hk
  · intro k p hk
    by_cases e : k = i
    · subst e; simp only [St.store, assign_same, Option.some.injEq] at hk
      exact Or.inr ⟨_, assign_same _ _ _, hk⟩
    · rw [assign_ne _ _ e]; simp only [St.store, assign_ne _ _ e] at hk; exact S.vsome k p hk
  · exact fun k hki => ⟨assign_ne _ _ hki, assign_ne _ _ hki, hk k⟩

/-- The node at a position is a tree. -/
theorem Sound.at (S : Sound s L) {i : Nat} {π : List Nat} {q : Ptr} (e : s.walk i π = .ok q) :
    ∃ w G, Good s.heap (some q) w G ∧ ∀ r ∈ G, ∃ x, L i = some x ∧ r ∈ x.F := by
  rcases Nat.lt_or_ge q 5 with h5 | h5
  · obtain ⟨w, g⟩ := const_tree S.world.inv h5
    exact ⟨w, [], g, by simp⟩
  · obtain ⟨x, w, Fq, hx, -, gq, hsub, -⟩ := S.walk e h5
    exact ⟨w, Fq, gq, fun r hr => ⟨x, hx, hsub r hr⟩⟩

/-- Taking a cache from the pool changes no tree. -/
theorem Good.cached {h : Heap} {a : Option Ptr} {v : Val} {F : List Ptr} (g : Good h a v F) (pick : Option Nat) :
    Good (getCache h pick).2 a v F ∧ (getCache h pick).1 < (getCache h pick).2.nextC ∧ ∀ q ∈ F, (getCache h pick).2.mem q = h.mem q := by
  have hk : ∀ r ∈ F, (getCache h pick).2.mem r = h.mem r := fun r hr => getCache_mem g.inv pick (g.live r hr)
  have I := g.inv.getCache pick
  exact ⟨⟨I.1, rep_frame g.rep ⟨hk, fun _ hp => g.inv.dt_const I.1 hp⟩, g.nodup, fun r hr h => g.live r hr (getCache_avail g.inv pick r h)⟩, I.2, hk⟩

theorem Sound.clone (S : Sound s L) (i : Nat) {j : Nat} {π : List Nat} {q : Ptr} (e : s.walk j π = .ok q) (b : Bool) (pick : Option Nat) (f : Nat)
    (hc : copyable f s.heap.mem (some q) = true) {r : Ptr × Heap} (er : cloneTop f s.heap q b pick = .ok r) :
    ∃ L', Sound (s.store i r) L' ∧ ∀ k, k ≠ i → Keeps s (s.store i r) L L' k := by
  obtain ⟨w, G, gq, -⟩ := S.at e
  have hG := copyable_rep gq.rep hc
  unfold cloneTop at er
  cases b with
  | false =>
    simp only [Bool.false_eq_true, if_false] at er
    have ok := gq.clone f none (by simp) hG
    rw [er] at ok
    obtain ⟨-, F', M⟩ := ok
    exact S.made i S.world (fun _ _ _ _ _ => rfl) [] (by simp) M (S.world.inv.clone_st f none (by simp) (by simp) er) (by simp)
  | true =>
    simp only [if_true] at er
    obtain ⟨W, hlt, hp, hu⟩ := S.world.getCache pick
    have hm := fun q => getCache_mem S.world.inv pick (q := q)
    have hcg := getCache_avail S.world.inv pick
    generalize Heap.getCache s.heap pick = rc at W hlt hp hu hm er hcg
    obtain ⟨c, h1⟩ := rc
    simp only at W hlt hp hu hm er hcg
    have hk : ∀ r ∈ G, h1.mem r = s.heap.mem r := fun r hr => hm r (gq.live r hr)
    have gq1 : Good h1 (some q) w G := ⟨W.inv, rep_frame gq.rep ⟨hk, fun _ hp => S.world.inv.dt_const W.inv hp⟩, gq.nodup, fun r hr h => gq.live r hr (hcg r h)⟩
    have ok := gq1.clone f (some c) (by intro d hd; cases hd; exact hlt) (fun r hr => by rw [hk r hr]; exact hG r hr)
    have st := W.inv.clone_st (X := fun d => d ∈ [c] ∨ h1.nextC ≤ d) f (some c) (by intro d hd; cases hd; exact hlt) (by intro d hd; cases hd; simp) er
    have er' := er
    rw [er] at ok
    obtain ⟨-, F', M⟩ := ok
    refine S.made i W (fun k x hx q hq => ?_) [c] ?_ M st ?_
    · obtain ⟨v, g⟩ := (S.world.held k x hx).good
      exact hm q (g.live q hq)
    · intro d hd; simp at hd; subst hd; exact ⟨hlt, hp, hu⟩
    · intro h5 d hd; simp at hd; subst hd
      exact clone_root f W.inv hlt gq1 (fun r hr => by rw [hk r hr]; exact hG r hr) er h5

/-- A variable gets a constant or nothing. -/
theorem Sound.setConst (S : Sound s L) (i : Nat) (a : Option Ptr) (ha : ∀ p, a = some p → p < 5) :
    ∃ L', Sound { s with var := assign s.var i a } L' ∧ ∀ k, k ≠ i → Keeps s { s with var := assign s.var i a } L L' k := by
  refine ⟨_, ⟨S.world.drop i, ?_, ?_⟩, fun k hk => ⟨assign_ne _ _ hk, assign_ne _ _ hk, fun _ _ _ _ => rfl⟩⟩
  · intro k hk
    by_cases e : k = i
    · subst e; exact assign_same _ _ _
    · rw [assign_ne _ _ e]; simp only [assign_ne _ _ e] at hk; exact S.vnone k hk
  · intro k p hk
    by_cases e : k = i
    · subst e; simp only [assign_same] at hk; exact Or.inl ⟨ha p hk, assign_same _ _ _⟩
    · rw [assign_ne _ _ e]; simp only [assign_ne _ _ e] at hk; exact S.vsome k p hk

theorem Sound.newValue (S : Sound s L) (i : Nat) (t : VT) :
    ∃ L', Sound (s.store i (Heap.newValue s.heap t)) L' ∧ ∀ k, k ≠ i → Keeps s (s.store i (Heap.newValue s.heap t)) L L' k := by
  cases ht : constOf t with
  | none =>
    exact S.store i S.world (fun _ _ _ _ _ => rfl) [] (by simp) (newValue_spec S.world.inv t ht) (newValue_step S.world.inv t) (by simp)
  | some p =>
    rw [newValue_const t ht]
    exact S.setConst i (some p) (by intro q hq; cases hq; exact (constOf_const ht).1)

theorem Sound.newCached (S : Sound s L) (i : Nat) (t : VT) (pick : Option Nat) :
    ∃ L', Sound (s.store i (newCacheValue s.heap t pick)) L' ∧ ∀ k, k ≠ i → Keeps s (s.store i (newCacheValue s.heap t pick)) L L' k := by
  unfold newCacheValue
  cases ht : constOf t with
  | some p => exact S.setConst i (some p) (by intro q hq; cases hq; exact (constOf_const ht).1)
  | none =>
    obtain ⟨W, hlt, hp, hu⟩ := S.world.getCache pick
    have hm := fun q => getCache_mem S.world.inv pick (q := q)
    generalize Heap.getCache s.heap pick = r at W hlt hp hu hm
    obtain ⟨c, h1⟩ := r
    simp only at W hlt hp hu hm ⊢
    refine S.store i W (fun k x hx q hq => ?_) [c] ?_ (getValue_spec W.inv (some c) t (by intro d hd; cases hd; exact hlt)) ?_ ?_
    · obtain ⟨v, g⟩ := (S.world.held k x hx).good
      exact hm q (g.live q hq)
    · intro d hd; simp at hd; subst hd; exact ⟨hlt, hp, hu⟩
    · exact W.inv.getValue_st (some c) t (by intro d hd; cases hd; exact hlt) (by intro d hd; cases hd; simp)
    · intro d hd; simp at hd; subst hd; exact getValue_root W.inv hlt t

theorem Sound.newPlain (S : Sound s L) (i : Nat) (t : VT) :
    ∃ L', Sound (s.store i (s.heap.new { Node.zero with dt := t })) L' ∧ ∀ k, k ≠ i → Keeps s (s.store i (s.heap.new { Node.zero with dt := t })) L L' k := by
  obtain ⟨g, hw, hn, hge, hm, -⟩ := new_spec S.world.inv { Node.zero with dt := t } (by simp [Node.zero])
  exact S.store i S.world (fun _ _ _ _ _ => rfl) [] (by simp) (t := t) ⟨g, hw, hn, hge, by rw [hm]; exact ⟨rfl, rfl, rfl, rfl, rfl, rfl, rfl⟩⟩ (new_step S.world.inv _ rfl) (by simp)

/-- A value changes in place. -/
theorem Sound.change (S : Sound s L) {i : Nat} {x : Live} (hx : L i = some x) {h' : Heap} {x' : Live} (hp : x'.p = x.p) (W : WInv h' (assign L i (some x')))
    (hm : ∀ k y, k ≠ i → L k = some y → ∀ q ∈ y.F, h'.mem q = s.heap.mem q) :
    ∃ L', Sound { s with heap := h' } L' ∧ ∀ k, k ≠ i → Keeps s { s with heap := h' } L L' k := by
  refine ⟨_, ⟨W, ?_, ?_⟩, fun k hk => ⟨assign_ne _ _ hk, rfl, fun y hy q hq => hm k y hk hy q hq⟩⟩
  · intro k hk
    by_cases e : k = i
    · subst e; have := S.vnone k hk; rw [hx] at this; cases this
    · rw [assign_ne _ _ e]; exact S.vnone k hk
  · intro k p hk
    by_cases e : k = i
    · subst e
      refine Or.inr ⟨x', assign_same _ _ _, ?_⟩
      rcases S.vsome k p hk with ⟨-, h1⟩ | ⟨y, hy, h2⟩
      · rw [hx] at h1; cases h1
      · rw [hx] at hy; cases hy; rw [hp, h2]
    · rw [assign_ne _ _ e]; exact S.vsome k p hk

theorem Sound.others (S : Sound s L) {i : Nat} {x : Live} (hx : L i = some x) {h' : Heap} (f : Frame s.heap x.F h') :
    ∀ k y, k ≠ i → L k = some y → ∀ q ∈ y.F, h'.mem q = s.heap.mem q := by
  intro k y hk hy q hq
  obtain ⟨v, g⟩ := (S.world.held k y hy).good
  exact f.mem q (rep_ge g.rep q hq) ((S.world.apart k i y x hk hy hx).nodes q hq) (g.live q hq)

theorem Sound.act (S : Sound s L) {E : Env} {i : Nat} {π : List Nat} {q : Ptr} (e : s.walk i π = .ok q) (h5 : 5 ≤ q) (m : Mut) {h' : Heap}
    (em : m.run E s.heap q = .ok h') : ∃ L', Sound { s with heap := h' } L' ∧ ∀ k, k ≠ i → Keeps s { s with heap := h' } L L' k := by
  obtain ⟨x, w, Fq, hx, -, gq, hsub, hup⟩ := S.walk e h5
  obtain ⟨w', Fq', u⟩ := Mut.moves gq h5 m em
  obtain ⟨v', F', u'⟩ := hup [] h' w' Fq' u (by simp)
  have hqF := hsub q (rep_mem gq.rep h5)
  have st := Mut.step (X := fun d => d ∈ x.cs ∨ s.heap.nextC ≤ d) S.world.inv m (fun d hd => Or.inl ((S.world.held i x hx).owner q hqF d hd)) em
  exact S.change hx (x' := ⟨x.p, F', x.cs ++ newIds s.heap h'⟩) rfl (S.world.step hx u' st) (S.others hx u'.frame)

theorem Sound.copyFrom (S : Sound s L) {i j : Nat} (hij : i ≠ j) {π ρ : List Nat} {p q : Ptr} (e : s.walk i π = .ok p) (h5 : 5 ≤ p) (e' : s.walk j ρ = .ok q) (f : Nat)
    (hc : copyable f s.heap.mem (some q) = true) {h' : Heap} (er : Heap.copyFrom f s.heap p (some q) none = .ok h') :
    ∃ L', Sound { s with heap := h' } L' ∧ ∀ k, k ≠ i → Keeps s { s with heap := h' } L L' k := by
  obtain ⟨x, w, Fq, hx, -, gp, hsub, hup⟩ := S.walk e h5
  obtain ⟨w', G, gq, hG⟩ := S.at e'
  have ok := copyFrom_spec gp h5 gq (fun r hr hF => by
    obtain ⟨y, hy, hry⟩ := hG r hr
    exact (S.world.apart i j x y hij hx hy).nodes r (hsub r hF) hry) (copyable_rep gq.rep hc) f none (by simp)
  rw [er] at ok
  obtain ⟨-, Fq', u⟩ := ok
  obtain ⟨v', F', u'⟩ := hup [] h' _ Fq' u (by simp)
  have hqF := hsub p (rep_mem gp.rep h5)
  have st := S.world.inv.copyFrom_st (X := fun d => d ∈ x.cs ∨ s.heap.nextC ≤ d) f p (some q) none (by simp) (by simp)
    (fun d hd => Or.inl ((S.world.held i x hx).owner p hqF d hd)) er
  exact S.change hx (x' := ⟨x.p, F', x.cs ++ newIds s.heap h'⟩) rfl (S.world.step hx u' st) (S.others hx u'.frame)

theorem Sound.addFrom (S : Sound s L) {i j : Nat} (hij : i ≠ j) {π ρ : List Nat} {p q : Ptr} (e : s.walk i π = .ok p) (h5 : 5 ≤ p) (e' : s.walk j ρ = .ok q) (f : Nat)
    (hc : copyable f s.heap.mem (some q) = true) (hd : (s.heap.mem p).dt = (s.heap.mem q).dt) {h' : Heap} (er : Heap.addFrom f s.heap p (some q) none = .ok h') :
    ∃ L', Sound { s with heap := h' } L' ∧ ∀ k, k ≠ i → Keeps s { s with heap := h' } L L' k := by
  obtain ⟨x, w, Fq, hx, -, gp, hsub, hup⟩ := S.walk e h5
  obtain ⟨w', G, gq, hG⟩ := S.at e'
  have hdp := rep_dt gp.rep
  have hdq := rep_dt gq.rep
  rw [hd, hdq] at hdp
  have hqF := hsub p (rep_mem gp.rep h5)
  have fin : (∃ v', addVal w w' = some v') → ∃ L', Sound { s with heap := h' } L' ∧ ∀ k, k ≠ i → Keeps s { s with heap := h' } L L' k := by
    rintro ⟨v1, hv1⟩
    have ok := addFrom_spec gp gq (fun r hr hF => by
      obtain ⟨y, hy, hry⟩ := hG r hr
      exact (S.world.apart i j x y hij hx hy).nodes r (hsub r hF) hry) (copyable_rep gq.rep hc) f none (by simp) hv1
    rw [er] at ok
    obtain ⟨-, Fq', u⟩ := ok
    obtain ⟨v', F', u'⟩ := hup [] h' _ Fq' u (by simp)
    have st := S.world.inv.addFrom_st (X := fun d => d ∈ x.cs ∨ s.heap.nextC ≤ d) f p (some q) none (by simp) (by simp)
      (fun d hd => Or.inl ((S.world.held i x hx).owner p hqF d hd)) er
    exact S.change hx (x' := ⟨x.p, F', x.cs ++ newIds s.heap h'⟩) rfl (S.world.step hx u' st) (S.others hx u'.frame)
  have same : (s.heap.mem q).dt ≠ .object → (s.heap.mem q).dt ≠ .array → h' = s.heap := by
    intro h1 h2
    unfold Heap.addFrom at er
    dsimp only at er
    split at er
    · contradiction
    · contradiction
    · cases er; rfl
  by_cases h1 : (s.heap.mem q).dt = .object
  · rw [hdq] at h1; rw [h1] at hdp
    cases w' <;> simp [Val.vt] at h1
    cases w <;> simp [Val.vt] at hdp
    exact fin ⟨_, rfl⟩
  · by_cases h2 : (s.heap.mem q).dt = .array
    · rw [hdq] at h2; rw [h2] at hdp
      cases w' <;> simp [Val.vt] at h2
      cases w <;> simp [Val.vt] at hdp
      exact fin ⟨_, rfl⟩
    · rw [same h1 h2]
      exact ⟨L, S, fun k _ => ⟨rfl, rfl, fun _ _ _ _ => rfl⟩⟩

/-- Moving the value of variable `j` into the value of variable `i`. -/
theorem Sound.put (S : Sound s L) {i j : Nat} (hij : i ≠ j) {π : List Nat} {q : Ptr} (e : s.walk i π = .ok q) (h5 : 5 ≤ q) (f : Option Ptr → Heap)
    (hf : ∀ {w : Val} {F : List Ptr} {b : Option Ptr} {y : Val} {G : List Ptr}, Good s.heap (some q) w F → Good s.heap b y G → (∀ r ∈ G, r ∉ F) →
      ∃ w' F', UpdX G s.heap F (f b) (some q) w' F')
    (hs : ∀ (X : CId → Prop) b, Step X s.heap (f b)) :
    ∃ L', Sound ⟨f (s.var j), assign s.var j none⟩ L' ∧ ∀ k, k ≠ i → k ≠ j → Keeps s ⟨f (s.var j), assign s.var j none⟩ L L' k := by
  obtain ⟨x, w, Fq, hx, -, gq, hsub, hup⟩ := S.walk e h5
  -- the part that is moved
  obtain ⟨z, y, gz, hz, hzx, hzo⟩ : ∃ z y, Good s.heap (s.var j) y z.F ∧ Part s.heap z ∧ (∀ r ∈ z.F, r ∉ x.F) ∧
      ∀ k u, k ≠ j → L k = some u → Apart z u := by
    cases hj : s.var j with
    | none => exact ⟨⟨0, [], []⟩, .nil, ⟨S.world.inv, ⟨rfl, rfl⟩, by simp, by simp⟩, Part.empty _, by simp, fun _ _ _ _ => ⟨by simp, by simp⟩⟩
    | some p =>
      rcases S.vsome j p hj with ⟨hlt, -⟩ | ⟨z, hz, rfl⟩
      · obtain ⟨y, hy⟩ := const_tree S.world.inv hlt
        exact ⟨⟨0, [], []⟩, y, hy, Part.empty _, by simp, fun _ _ _ _ => ⟨by simp, by simp⟩⟩
      · obtain ⟨y, gy⟩ := (S.world.held j z hz).good
        exact ⟨z, y, gy, (S.world.held j z hz).part, (S.world.apart j i z x (Ne.symm hij) hz hx).nodes,
          fun k u hk hu => S.world.apart j k z u (Ne.symm hk) hz hu⟩
  obtain ⟨w', Fq', u⟩ := hf gq gz (fun r hr hF => hzx r hr (hsub r hF))
  obtain ⟨v', F', u'⟩ := hup z.F _ w' Fq' u hzx
  have hxj : assign L j none i = some x := by rw [assign_ne _ _ hij]; exact hx
  have W := (S.world.drop j).stepX hxj hz (fun k y hk hy => by
    obtain ⟨hkj, hy⟩ := assign_some hy
    exact hzo k y hkj hy) u' (hs _ _)
  refine ⟨_, ⟨W, ?_, ?_⟩, ?_⟩
  · intro k hk
    by_cases ei : k = i
    · subst ei
      simp only [assign_ne _ _ hij] at hk
      have := S.vnone k hk; rw [hx] at this; cases this
    · rw [assign_ne _ _ ei]
      by_cases ej : k = j
      · subst ej; exact assign_same _ _ _
      · simp only [assign_ne _ _ ej] at hk ⊢; exact S.vnone k hk
  · intro k p hk
    by_cases ei : k = i
    · subst ei
      simp only [assign_ne _ _ hij] at hk
      refine Or.inr ⟨_, assign_same _ _ _, ?_⟩
      rcases S.vsome k p hk with ⟨-, h1⟩ | ⟨y, hy, h2⟩
      · rw [hx] at h1; cases h1
      · rw [hx] at hy; cases hy; exact h2
    · rw [assign_ne _ _ ei]
      by_cases ej : k = j
      · subst ej; simp only [assign_same] at hk; cases hk
      · simp only [assign_ne _ _ ej] at hk ⊢; exact S.vsome k p hk
  · intro k hki hkj
    refine ⟨by rw [assign_ne _ _ hki, assign_ne _ _ hkj], assign_ne _ _ hkj, fun y hy r hr => ?_⟩
    exact S.others hx u'.frame k y hki hy r hr

/-- Every statement keeps the values apart, and leaves those it does not mention alone. -/
theorem Sound.exec (S : Sound s L) (E : Env) (c : Cmd) {s' : St} (e : c.exec E s = .ok s') :
    ∃ L', Sound s' L' ∧ ∀ k, k ∉ c.vars → Keeps s s' L L' k := by
  have skip : ∃ L', Sound s L' ∧ ∀ k, k ∉ c.vars → Keeps s s L L' k := ⟨L, S, fun k _ => ⟨rfl, rfl, fun _ _ _ _ => rfl⟩⟩
  have one : ∀ {i : Nat} {s' : St}, c.vars = [i] → (∃ L', Sound s' L' ∧ ∀ k, k ≠ i → Keeps s s' L L' k) →
      ∃ L', Sound s' L' ∧ ∀ k, k ∉ c.vars → Keeps s s' L L' k := by
    rintro i s' hv ⟨L', S', hk⟩
    exact ⟨L', S', fun k h => hk k (by rw [hv] at h; simpa using h)⟩
  have two : ∀ {i j : Nat} {s' : St}, c.vars = [i, j] → (∃ L', Sound s' L' ∧ ∀ k, k ≠ i → k ≠ j → Keeps s s' L L' k) →
      ∃ L', Sound s' L' ∧ ∀ k, k ∉ c.vars → Keeps s s' L L' k := by
    rintro i j s' hv ⟨L', S', hk⟩
    refine ⟨L', S', fun k h => ?_⟩
    rw [hv] at h; simp at h
    exact hk k h.1 h.2
  have ge : ∀ {q : Ptr}, ¬ shared q = true → 5 ≤ q := fun h => Nat.le_of_not_lt (fun hl => h (shared_iff.2 hl))
  cases c with
  | newValue i t => simp only [Cmd.exec, Res.ok.injEq] at e; subst e; exact one rfl (S.newValue i t)
  | newCached i t pick => simp only [Cmd.exec, Res.ok.injEq] at e; subst e; exact one rfl (S.newCached i t pick)
  | newObject i b pick =>
    simp only [Cmd.exec, Res.ok.injEq] at e; subst e
    unfold Heap.newObject
    cases b
    · exact one rfl (S.newPlain i .object)
    · exact one rfl (S.newCached i .object pick)
  | newArray i b pick =>
    simp only [Cmd.exec, Res.ok.injEq] at e; subst e
    unfold Heap.newArray
    cases b
    · exact one rfl (S.newPlain i .array)
    · exact one rfl (S.newCached i .array pick)
  | act i π m =>
    simp only [Cmd.exec, Res.bind_eq_ok] at e
    obtain ⟨q, e1, e⟩ := e
    split at e
    · cases e; exact skip
    · rename_i hq
      simp only [Res.bind_eq_ok] at e
      obtain ⟨h', e2, e⟩ := e
      cases e
      exact one rfl (S.act e1 (ge hq) m e2)
  | putKey i π k j =>
    simp only [Cmd.exec, Res.bind_eq_ok] at e
    obtain ⟨q, e1, e⟩ := e
    split at e
    · cases e; exact skip
    · rename_i hq
      cases e
      simp only [Bool.or_eq_true, not_or, beq_iff_eq] at hq
      exact two rfl (S.put hq.2 e1 (ge hq.1) (fun b => setKeyValue E s.heap q k b)
        (fun g gw hd => setKeyValue_any E g (ge hq.1) k gw hd) (fun X b => S.world.inv.setKeyValue_st E q k b))
  | putIndex i π n j =>
    simp only [Cmd.exec, Res.bind_eq_ok] at e
    obtain ⟨q, e1, e⟩ := e
    split at e
    · cases e; exact skip
    · rename_i hq
      cases e
      simp only [Bool.or_eq_true, not_or, beq_iff_eq] at hq
      exact two rfl (S.put hq.2 e1 (ge hq.1) (fun b => setIndexValue s.heap q n b)
        (fun g gw hd => setIndexValue_any g (ge hq.1) n gw hd) (fun X b => S.world.inv.setIndexValue_st q n b))
  | clear i =>
    simp only [Cmd.exec, Res.bind_eq_ok] at e
    obtain ⟨q, e1, e⟩ := e
    split at e
    · cases e; exact skip
    · rename_i hq
      cases e
      obtain ⟨x, w, Fq, hx, hp, gq, hsub, -⟩ := S.walk e1 (ge hq)
      have hp := hp rfl
      subst hp
      refine one rfl (S.change hx (x' := ⟨x.p, [x.p], x.cs⟩) rfl (S.world.clear hx).1 (fun k y hk hy r hr => clear_mem_ne ?_))
      rintro rfl
      exact (S.world.apart k i y x hk hy hx).nodes _ hr (hsub _ (rep_mem gq.rep (ge hq)))
  | free i n =>
    simp only [Cmd.exec, Res.bind_eq_ok] at e
    obtain ⟨q, e1, e⟩ := e
    split at e
    · cases e; exact skip
    · rename_i hq
      cases e
      obtain ⟨x, w, Fq, hx, hp, gq, hsub, -⟩ := S.walk e1 (ge hq)
      have hp := hp rfl
      subst hp
      rw [freeN_eq]
      refine one rfl ⟨_, ⟨S.world.free hx, ?_, ?_⟩, fun k hk => ⟨assign_ne _ _ hk, assign_ne _ _ hk, fun y hy r hr => freeValue_mem_ne ?_⟩⟩
      · intro k hk
        by_cases e : k = i
        · subst e; exact assign_same _ _ _
        · rw [assign_ne _ _ e]; simp only [assign_ne _ _ e] at hk; exact S.vnone k hk
      · intro k p hk
        by_cases e : k = i
        · subst e; simp only [assign_same] at hk; cases hk
        · rw [assign_ne _ _ e]; simp only [assign_ne _ _ e] at hk; exact S.vsome k p hk
      · rintro rfl
        exact (S.world.apart k i y x hk hy hx).nodes _ hr (hsub _ (rep_mem gq.rep (ge hq)))
  | forget i => simp only [Cmd.exec, Res.ok.injEq] at e; subst e; exact one rfl (S.setConst i none (by simp))
  | clone i j π b pick f =>
    simp only [Cmd.exec, Res.bind_eq_ok] at e
    obtain ⟨q, e1, e⟩ := e
    split at e
    · rename_i hc
      simp only [Res.bind_eq_ok] at e
      obtain ⟨r, e2, e⟩ := e
      cases e
      exact one rfl (S.clone i e1 b pick f hc e2)
    · cases e; exact skip
  | copyFrom i π j ρ f =>
    simp only [Cmd.exec, Res.bind_eq_ok] at e
    obtain ⟨p, e1, q, e2, e⟩ := e
    split at e
    · cases e; exact skip
    · rename_i hq
      simp only [Bool.or_eq_true, not_or, beq_iff_eq, Bool.not_eq_true', Bool.not_eq_false] at hq
      simp only [Res.bind_eq_ok] at e
      obtain ⟨h', e3, e⟩ := e
      cases e
      exact one rfl (S.copyFrom hq.1.2 e1 (ge hq.1.1) e2 f hq.2 e3)
  | addFrom i π j ρ f =>
    simp only [Cmd.exec, Res.bind_eq_ok] at e
    obtain ⟨p, e1, q, e2, e⟩ := e
    split at e
    · cases e; exact skip
    · rename_i hq
      simp only [Bool.or_eq_true, not_or, beq_iff_eq, Bool.not_eq_true', Bool.not_eq_false, decide_eq_true_eq, ne_eq, Decidable.not_not] at hq
      simp only [Res.bind_eq_ok] at e
      obtain ⟨h', e3, e⟩ := e
      cases e
      exact one rfl (S.addFrom hq.1.1.2 e1 (ge hq.1.1.1) e2 f hq.1.2 hq.2 e3)

/-- A program leaves the values alone that it does not mention. -/
theorem Sound.keepsAll (E : Env) (k : Nat) : ∀ (cs : List Cmd) {s s' : St} {L : Nat → Option Live}, Sound s L → Heap.execAll E s cs = .ok s' →
    (∀ c ∈ cs, k ∉ c.vars) → ∃ L', Sound s' L' ∧ Keeps s s' L L' k
  | [], s, s', L, S, e, _ => by cases e; exact ⟨L, S, rfl, rfl, fun _ _ _ _ => rfl⟩
  | c :: cs, s, s', L, S, e, hk => by
    rw [Heap.execAll, Res.bind_eq_ok] at e
    obtain ⟨s1, e1, e⟩ := e
    obtain ⟨L1, S1, k1⟩ := S.exec E c e1
    obtain ⟨L2, S2, k2⟩ := Sound.keepsAll E k cs S1 e (fun c hc => hk c (by simp [hc]))
    have k1 := k1 k (hk c (by simp))
    refine ⟨L2, S2, k2.live.trans k1.live, k2.var.trans k1.var, fun x hx q hq => ?_⟩
    rw [k2.mem x (k1.live.trans hx) q hq, k1.mem x hx q hq]

theorem Sound.execAll (E : Env) : ∀ (cs : List Cmd) {s s' : St} {L : Nat → Option Live}, Sound s L → Heap.execAll E s cs = .ok s' → ∃ L', Sound s' L'
  | [], s, s', L, S, e => by cases e; exact ⟨L, S⟩
  | c :: cs, s, s', L, S, e => by
    rw [Heap.execAll, Res.bind_eq_ok] at e
    obtain ⟨s1, e1, e⟩ := e
    obtain ⟨L1, S1, -⟩ := S.exec E c e1
    exact Sound.execAll E cs S1 e

end

end Dxs.Heap
