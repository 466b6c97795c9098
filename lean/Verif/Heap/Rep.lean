import Verif.Heap.Alloc

/-!
# Which tree a pointer represents

`Rep m v a F`: in memory `m` the pointer `a` represents the tree `v`, and `F` lists the nodes it consists of (the shared
constants are not listed: they may occur anywhere). A value is a proper tree when `F` has no repetitions.
-/

namespace Dxs.Heap

/-- What can be seen of a node: of the constants only the type. -/
def view (m : Ptr → Node) (p : Ptr) : Node := if p < 5 then { Node.zero with dt := (m p).dt } else m p

theorem view_ge {m : Ptr → Node} {p : Ptr} (h : 5 ≤ p) : view m p = m p := by simp [view, Nat.not_lt.2 h]
@[simp] theorem view_dt (m : Ptr → Node) (p : Ptr) : (view m p).dt = (m p).dt := by unfold view; split <;> rfl

/-- The value of a node without children. -/
def leafOf (n : Node) : Option Val :=
  match n.dt with
  | .object | .array => none
  | .string => some (.str n.str)
  | .rawString => some (.raw n.str)
  | .int => some (.int n.ext n.cell)
  | .float => some (.float n.cell)
  | .double => some (.double n.cell)
  | .dateTime => some (.dateTime n.cell)
  | .binary => some (.bin n.ext n.bin)
  | .exBinary => some (.exbin n.ext n.bin)
  | .null => some .null
  | .true => some .tru
  | .false => some .fls
  | .nan => some .nan
  | .inf => some .inf

/-- The nodes of a leaf. -/
def foot (p : Ptr) : List Ptr := if p < 5 then [] else [p]

/-- A leaf is represented. -/
def RepLeaf (m : Ptr → Node) (v : Val) (a : Option Ptr) (F : List Ptr) : Prop :=
  ∃ p, a = some p ∧ F = foot p ∧ leafOf (view m p) = some v

mutual
/-- The pointer `a` represents the tree `v` with nodes `F`. -/
def Rep (m : Ptr → Node) : Val → Option Ptr → List Ptr → Prop
  | .nil, a, F => a = none ∧ F = []
  | .obj ku kvs, a, F => ∃ p F', a = some p ∧ 5 ≤ p ∧ F = p :: F' ∧ (m p).dt = .object ∧ (m p).ku = ku ∧ RepM m kvs (m p).kvs F'
  | .arr xs, a, F => ∃ p F', a = some p ∧ 5 ≤ p ∧ F = p :: F' ∧ (m p).dt = .array ∧ RepL m xs (m p).arr F'
  | .str s, a, F => RepLeaf m (.str s) a F
  | .raw s, a, F => RepLeaf m (.raw s) a F
  | .int e c, a, F => RepLeaf m (.int e c) a F
  | .float c, a, F => RepLeaf m (.float c) a F
  | .double c, a, F => RepLeaf m (.double c) a F
  | .dateTime c, a, F => RepLeaf m (.dateTime c) a F
  | .bin e b, a, F => RepLeaf m (.bin e b) a F
  | .exbin e b, a, F => RepLeaf m (.exbin e b) a F
  | .null, a, F => RepLeaf m .null a F
  | .tru, a, F => RepLeaf m .tru a F
  | .fls, a, F => RepLeaf m .fls a F
  | .nan, a, F => RepLeaf m .nan a F
  | .inf, a, F => RepLeaf m .inf a F
/-- The elements of an array. -/
def RepL (m : Ptr → Node) : List Val → List (Option Ptr) → List Ptr → Prop
  | [], ps, F => ps = [] ∧ F = []
  | x :: xs, ps, F => ∃ q qs F1 F2, ps = q :: qs ∧ F = F1 ++ F2 ∧ Rep m x q F1 ∧ RepL m xs qs F2
/-- The members of an object. -/
def RepM (m : Ptr → Node) : List (Bytes × Val) → List (Bytes × Option Ptr) → List Ptr → Prop
  | [], ps, F => ps = [] ∧ F = []
  | x :: xs, ps, F => ∃ q qs F1 F2, ps = (x.1, q) :: qs ∧ F = F1 ++ F2 ∧ Rep m x.2 q F1 ∧ RepM m xs qs F2
end

/-- No children. -/
def Val.isLeaf : Val → Bool
  | .nil | .obj .. | .arr _ => false
  | _ => true

theorem rep_leaf {m : Ptr → Node} {v : Val} (hv : Val.isLeaf v = true) (a : Option Ptr) (F : List Ptr) :
    Rep m v a F ↔ RepLeaf m v a F := by
  cases v <;> simp [Val.isLeaf] at hv <;> simp [Rep]

theorem leafOf_isLeaf {n : Node} {v : Val} (h : leafOf n = some v) : Val.isLeaf v = true ∧ v.vt = n.dt := by
  unfold leafOf at h
  split at h <;> simp at h <;> subst h <;> simp_all [Val.isLeaf, Val.vt]

/-- The children. -/
def Val.kids : Val → List Val
  | .obj _ kvs => kvs.map Prod.snd
  | .arr xs => xs
  | _ => []

/-- The child pointers. -/
def Node.kids (n : Node) : List (Option Ptr) :=
  match n.dt with
  | .object => n.kvs.map Prod.snd
  | .array => n.arr
  | _ => []

theorem repM_iff {m : Ptr → Node} {kvs : List (Bytes × Val)} {ps : List (Bytes × Option Ptr)} {F : List Ptr} :
    RepM m kvs ps F ↔ ps.map Prod.fst = kvs.map Prod.fst ∧ RepL m (kvs.map Prod.snd) (ps.map Prod.snd) F := by
  induction kvs generalizing ps F with
  | nil => simp [RepM, RepL]
  | cons x xs ih =>
    simp only [RepM, RepL, List.map_cons]
    constructor
    · rintro ⟨q, qs, F1, F2, rfl, rfl, h1, h2⟩
      have := ih.1 h2
      exact ⟨by simp [this.1], q, _, F1, F2, rfl, rfl, h1, this.2⟩
    · rintro ⟨hk, q, qs, F1, F2, hps, rfl, h1, h2⟩
      cases ps with
      | nil => simp at hk
      | cons y ys =>
        obtain ⟨k, w⟩ := y
        simp only [List.map_cons, List.cons.injEq] at hk hps
        obtain ⟨rfl, hk⟩ := hk
        obtain ⟨rfl, rfl⟩ := hps
        exact ⟨w, ys, F1, F2, rfl, rfl, h1, ih.2 ⟨hk, h2⟩⟩

theorem repL_length {m : Ptr → Node} {xs : List Val} {ps : List (Option Ptr)} {F : List Ptr} (h : RepL m xs ps F) :
    ps.length = xs.length := by
  induction xs generalizing ps F with
  | nil => simp [RepL] at h; simp [h]
  | cons x xs ih =>
    obtain ⟨q, qs, F1, F2, rfl, rfl, -, h2⟩ := h
    simp [ih h2]

theorem repL_append {m : Ptr → Node} {xs ys : List Val} {ps : List (Option Ptr)} {F : List Ptr} :
    RepL m (xs ++ ys) ps F ↔ ∃ ps1 ps2 F1 F2, ps = ps1 ++ ps2 ∧ F = F1 ++ F2 ∧ RepL m xs ps1 F1 ∧ RepL m ys ps2 F2 := by
  induction xs generalizing ps F with
  | nil =>
    constructor
    · intro h; exact ⟨[], ps, [], F, rfl, rfl, ⟨rfl, rfl⟩, h⟩
    · rintro ⟨ps1, ps2, F1, F2, rfl, rfl, ⟨rfl, rfl⟩, h⟩; exact h
  | cons x xs ih =>
    constructor
    · rintro ⟨q, qs, F1, F2, rfl, rfl, h1, h2⟩
      obtain ⟨ps1, ps2, G1, G2, rfl, rfl, h3, h4⟩ := ih.1 h2
      exact ⟨q :: ps1, ps2, F1 ++ G1, G2, rfl, by simp, ⟨q, ps1, F1, G1, rfl, rfl, h1, h3⟩, h4⟩
    · rintro ⟨ps1, ps2, F1, F2, rfl, rfl, ⟨q, qs, G1, G2, rfl, rfl, h1, h2⟩, h3⟩
      exact ⟨q, qs ++ ps2, G1, G2 ++ F2, rfl, by simp, h1, ih.2 ⟨qs, ps2, G2, F2, rfl, rfl, h2, h3⟩⟩

theorem repL_single {m : Ptr → Node} {x : Val} {q : Option Ptr} {F : List Ptr} : RepL m [x] [q] F ↔ Rep m x q F := by
  constructor
  · rintro ⟨q', qs, F1, F2, he, rfl, h1, ⟨rfl, rfl⟩⟩
    simp at he; subst he; simpa using h1
  · intro h; exact ⟨q, [], F, [], rfl, by simp, h, rfl, rfl⟩

/-- Cut a represented list at an element. -/
theorem repL_cut {m : Ptr → Node} {xs : List Val} {ps : List (Option Ptr)} {F : List Ptr} (h : RepL m xs ps F) {i : Nat}
    {x : Val} (hx : xs[i]? = some x) :
    ∃ q F1 Fi F2, ps[i]? = some q ∧ ps = ps.take i ++ q :: ps.drop (i + 1) ∧ F = F1 ++ Fi ++ F2 ∧
      RepL m (xs.take i) (ps.take i) F1 ∧ Rep m x q Fi ∧ RepL m (xs.drop (i + 1)) (ps.drop (i + 1)) F2 := by
  induction xs generalizing ps F i with
  | nil => simp at hx
  | cons y ys ih =>
    obtain ⟨q, qs, F1, F2, rfl, rfl, h1, h2⟩ := h
    cases i with
    | zero =>
      simp at hx; subst hx
      exact ⟨q, [], F1, F2, rfl, by simp, by simp, ⟨rfl, rfl⟩, h1, by simpa using h2⟩
    | succ i =>
      simp at hx
      obtain ⟨q', G1, Gi, G2, h3, h4, rfl, h5, h6, h7⟩ := ih h2 hx
      refine ⟨q', F1 ++ G1, Gi, G2, by simpa using h3, ?_, by simp, ⟨q, _, F1, G1, rfl, rfl, h1, h5⟩, h6, by simpa using h7⟩
      simp only [List.take_succ_cons, List.drop_succ_cons, List.cons_append]
      rw [← h4]

theorem repL_glue {m : Ptr → Node} {xs ys : List Val} {x : Val} {ps qs : List (Option Ptr)} {q : Option Ptr} {F1 Fi F2 : List Ptr}
    (h1 : RepL m xs ps F1) (h2 : Rep m x q Fi) (h3 : RepL m ys qs F2) :
    RepL m (xs ++ x :: ys) (ps ++ q :: qs) (F1 ++ Fi ++ F2) :=
  repL_append.2 ⟨ps, q :: qs, F1, Fi ++ F2, rfl, by simp, h1, q, qs, Fi, F2, rfl, rfl, h2, h3⟩

mutual
theorem rep_ge {m : Ptr → Node} : ∀ {v : Val} {a : Option Ptr} {F : List Ptr}, Rep m v a F → ∀ q ∈ F, 5 ≤ q
  | .nil, a, F, h, q, hq => by obtain ⟨-, rfl⟩ := h; simp at hq
  | .obj ku kvs, a, F, h, q, hq => by
    obtain ⟨p, F', rfl, h5, rfl, -, -, hm⟩ := h
    rcases List.mem_cons.1 hq with rfl | hq
    · exact h5
    · exact repM_ge hm q hq
  | .arr xs, a, F, h, q, hq => by
    obtain ⟨p, F', rfl, h5, rfl, -, hm⟩ := h
    rcases List.mem_cons.1 hq with rfl | hq
    · exact h5
    · exact repL_ge hm q hq
  | .str _, _, _, h, q, hq | .raw _, _, _, h, q, hq | .int _ _, _, _, h, q, hq | .float _, _, _, h, q, hq
  | .double _, _, _, h, q, hq | .dateTime _, _, _, h, q, hq | .bin _ _, _, _, h, q, hq | .exbin _ _, _, _, h, q, hq
  | .null, _, _, h, q, hq | .tru, _, _, h, q, hq | .fls, _, _, h, q, hq | .nan, _, _, h, q, hq | .inf, _, _, h, q, hq => by
    obtain ⟨p, -, rfl, -⟩ := h
    unfold foot at hq; split at hq
    · simp at hq
    · simp at hq; subst hq; omega
theorem repL_ge {m : Ptr → Node} : ∀ {xs : List Val} {ps : List (Option Ptr)} {F : List Ptr}, RepL m xs ps F → ∀ q ∈ F, 5 ≤ q
  | [], _, _, h, q, hq => by obtain ⟨-, rfl⟩ := h; simp at hq
  | x :: xs, _, _, h, q, hq => by
    obtain ⟨_, _, F1, F2, rfl, rfl, h1, h2⟩ := h
    rcases List.mem_append.1 hq with hq | hq
    · exact rep_ge h1 q hq
    · exact repL_ge h2 q hq
theorem repM_ge {m : Ptr → Node} : ∀ {xs : List (Bytes × Val)} {ps : List (Bytes × Option Ptr)} {F : List Ptr},
    RepM m xs ps F → ∀ q ∈ F, 5 ≤ q
  | [], _, _, h, q, hq => by obtain ⟨-, rfl⟩ := h; simp at hq
  | x :: xs, _, _, h, q, hq => by
    obtain ⟨_, _, F1, F2, rfl, rfl, h1, h2⟩ := h
    rcases List.mem_append.1 hq with hq | hq
    · exact rep_ge h1 q hq
    · exact repM_ge h2 q hq
end

/-- Two memories look the same on `F` and on the constants. -/
def Agree (m m' : Ptr → Node) (F : List Ptr) : Prop := (∀ p ∈ F, m' p = m p) ∧ ∀ p < 5, (m' p).dt = (m p).dt

theorem Agree.mono {m m' : Ptr → Node} {F G : List Ptr} (h : Agree m m' F) (hs : ∀ q ∈ G, q ∈ F) : Agree m m' G :=
  ⟨fun p hp => h.1 p (hs p hp), h.2⟩

theorem Agree.view {m m' : Ptr → Node} {F : List Ptr} (h : Agree m m' F) {p : Ptr} (hp : p ∈ F ∨ p < 5) : view m' p = view m p := by
  unfold Heap.view
  split
  · rename_i h5; rw [h.2 p h5]
  · rename_i h5
    rcases hp with hp | hp
    · exact h.1 p hp
    · exact absurd hp h5

mutual
/-- What a pointer represents depends only on its own nodes. -/
theorem rep_frame {m m' : Ptr → Node} : ∀ {v : Val} {a : Option Ptr} {F : List Ptr}, Rep m v a F → Agree m m' F → Rep m' v a F
  | .nil, a, F, h, _ => h
  | .obj ku kvs, a, F, h, hf => by
    obtain ⟨p, F', rfl, h5, rfl, hd, hk, hm⟩ := h
    have hp : m' p = m p := hf.1 p (by simp)
    refine ⟨p, F', rfl, h5, rfl, by rw [hp]; exact hd, by rw [hp]; exact hk, ?_⟩
    rw [hp]
    exact repM_frame hm (hf.mono fun q hq => by simp [hq])
  | .arr xs, a, F, h, hf => by
    obtain ⟨p, F', rfl, h5, rfl, hd, hm⟩ := h
    have hp : m' p = m p := hf.1 p (by simp)
    refine ⟨p, F', rfl, h5, rfl, by rw [hp]; exact hd, ?_⟩
    rw [hp]
    exact repL_frame hm (hf.mono fun q hq => by simp [hq])
  | .str _, _, _, h, hf | .raw _, _, _, h, hf | .int _ _, _, _, h, hf | .float _, _, _, h, hf
  | .double _, _, _, h, hf | .dateTime _, _, _, h, hf | .bin _ _, _, _, h, hf | .exbin _ _, _, _, h, hf
  | .null, _, _, h, hf | .tru, _, _, h, hf | .fls, _, _, h, hf | .nan, _, _, h, hf | .inf, _, _, h, hf => by
    obtain ⟨p, rfl, rfl, hv⟩ := h
    refine ⟨p, rfl, rfl, ?_⟩
    rw [hf.view]
    · exact hv
    · unfold foot; split <;> simp_all
theorem repL_frame {m m' : Ptr → Node} : ∀ {xs : List Val} {ps : List (Option Ptr)} {F : List Ptr}, RepL m xs ps F → Agree m m' F → RepL m' xs ps F
  | [], _, _, h, _ => h
  | x :: xs, _, _, h, hf => by
    obtain ⟨q, qs, F1, F2, rfl, rfl, h1, h2⟩ := h
    exact ⟨q, qs, F1, F2, rfl, rfl, rep_frame h1 (hf.mono fun q hq => by simp [hq]), repL_frame h2 (hf.mono fun q hq => by simp [hq])⟩
theorem repM_frame {m m' : Ptr → Node} : ∀ {xs : List (Bytes × Val)} {ps : List (Bytes × Option Ptr)} {F : List Ptr},
    RepM m xs ps F → Agree m m' F → RepM m' xs ps F
  | [], _, _, h, _ => h
  | x :: xs, _, _, h, hf => by
    obtain ⟨q, qs, F1, F2, rfl, rfl, h1, h2⟩ := h
    exact ⟨q, qs, F1, F2, rfl, rfl, rep_frame h1 (hf.mono fun q hq => by simp [hq]), repM_frame h2 (hf.mono fun q hq => by simp [hq])⟩
end

/-- The three shapes of a represented value. -/
theorem rep_cases {m : Ptr → Node} {v : Val} {a : Option Ptr} {F : List Ptr} (h : Rep m v a F) :
    (v = .nil ∧ a = none ∧ F = []) ∨
    (∃ p F', a = some p ∧ 5 ≤ p ∧ F = p :: F' ∧ (m p).dt = v.vt ∧ (v.vt = .object ∨ v.vt = .array) ∧ v ≠ .nil) ∨
    (∃ p, Val.isLeaf v = true ∧ a = some p ∧ F = foot p ∧ leafOf (view m p) = some v ∧ (m p).dt = v.vt) := by
  cases v with
  | nil => exact Or.inl ⟨rfl, h.1, h.2⟩
  | obj ku kvs =>
    obtain ⟨p, F', rfl, h5, rfl, hd, -⟩ := h
    exact Or.inr (Or.inl ⟨p, F', rfl, h5, rfl, hd, Or.inl rfl, by simp⟩)
  | arr xs =>
    obtain ⟨p, F', rfl, h5, rfl, hd, -⟩ := h
    exact Or.inr (Or.inl ⟨p, F', rfl, h5, rfl, hd, Or.inr rfl, by simp⟩)
  | _ =>
    obtain ⟨p, rfl, rfl, hv⟩ := h
    refine Or.inr (Or.inr ⟨p, rfl, rfl, rfl, hv, ?_⟩)
    have := (leafOf_isLeaf hv).2
    simpa using this.symm

/-- The type of the node is the type of the tree. -/
theorem rep_dt {m : Ptr → Node} {v : Val} {p : Ptr} {F : List Ptr} (h : Rep m v (some p) F) : (m p).dt = v.vt := by
  rcases rep_cases h with ⟨-, h, -⟩ | ⟨q, _, h, _, _, hd, _⟩ | ⟨q, _, h, _, _, hd⟩
  · cases h
  · cases h; exact hd
  · cases h; exact hd

theorem rep_ne_nil {m : Ptr → Node} {v : Val} {p : Ptr} {F : List Ptr} (h : Rep m v (some p) F) : v ≠ .nil := by
  rintro rfl; cases h.1

theorem rep_mem {m : Ptr → Node} {v : Val} {p : Ptr} {F : List Ptr} (h : Rep m v (some p) F) (hp : 5 ≤ p) : p ∈ F := by
  rcases rep_cases h with ⟨-, h, -⟩ | ⟨q, _, e, _, rfl, hd, _⟩ | ⟨q, _, e, rfl, _, hd⟩
  · cases h
  · cases e; simp
  · cases e; simp [foot, Nat.not_lt.2 hp]

mutual
/-- A pointer represents at most one tree. -/
theorem rep_det {m : Ptr → Node} : ∀ {v w : Val} {a : Option Ptr} {F G : List Ptr}, Rep m v a F → Rep m w a G → v = w ∧ F = G
  | .nil, w, a, F, G, h, h' => by
    obtain ⟨rfl, rfl⟩ := h
    rcases rep_cases h' with ⟨rfl, -, rfl⟩ | ⟨_, _, h, _⟩ | ⟨_, _, h, _⟩
    · exact ⟨rfl, rfl⟩
    · cases h
    · cases h
  | .obj ku kvs, w, a, F, G, h, h' => by
    obtain ⟨p, F', rfl, h5, rfl, hd, rfl, hm⟩ := h
    have hw := rep_dt h'
    rw [hd] at hw
    cases w with
    | obj ku' kvs' =>
      obtain ⟨p', G', hp, -, rfl, -, rfl, hm'⟩ := h'
      cases hp
      obtain ⟨rfl, rfl⟩ := repM_det hm hm'
      exact ⟨rfl, rfl⟩
    | nil => exact absurd rfl (rep_ne_nil h')
    | _ => simp [Val.vt] at hw
  | .arr xs, w, a, F, G, h, h' => by
    obtain ⟨p, F', rfl, h5, rfl, hd, hm⟩ := h
    have hw := rep_dt h'
    rw [hd] at hw
    cases w with
    | arr ys =>
      obtain ⟨p', G', hp, -, rfl, -, hm'⟩ := h'
      cases hp
      obtain ⟨rfl, rfl⟩ := repL_det hm hm'
      exact ⟨rfl, rfl⟩
    | nil => exact absurd rfl (rep_ne_nil h')
    | _ => simp [Val.vt] at hw
  | .str _, _, _, _, _, h, h' | .raw _, _, _, _, _, h, h' | .int _ _, _, _, _, _, h, h' | .float _, _, _, _, _, h, h'
  | .double _, _, _, _, _, h, h' | .dateTime _, _, _, _, _, h, h' | .bin _ _, _, _, _, _, h, h' | .exbin _ _, _, _, _, _, h, h'
  | .null, _, _, _, _, h, h' | .tru, _, _, _, _, h, h' | .fls, _, _, _, _, h, h' | .nan, _, _, _, _, h, h'
  | .inf, _, _, _, _, h, h' => by
    obtain ⟨p, rfl, rfl, hv⟩ := h
    have hl := leafOf_isLeaf hv
    rcases rep_cases h' with ⟨-, h, -⟩ | ⟨q, _, h, _, _, hd, ho, _⟩ | ⟨q, _, h, hf, hw, _⟩
    · cases h
    · cases h
      rw [view_dt, hd] at hl
      rcases ho with ho | ho <;> rw [ho] at hl <;> simp [Val.vt] at hl
    · cases h
      rw [hv] at hw
      exact ⟨by simpa using hw, hf.symm⟩
theorem repL_det {m : Ptr → Node} : ∀ {xs ys : List Val} {ps : List (Option Ptr)} {F G : List Ptr},
    RepL m xs ps F → RepL m ys ps G → xs = ys ∧ F = G
  | [], ys, _, _, _, h, h' => by
    obtain ⟨rfl, rfl⟩ := h
    cases ys with
    | nil => exact ⟨rfl, h'.2.symm⟩
    | cons y ys => obtain ⟨_, _, _, _, h, _⟩ := h'; cases h
  | x :: xs, ys, _, _, _, h, h' => by
    obtain ⟨q, qs, F1, F2, rfl, rfl, h1, h2⟩ := h
    cases ys with
    | nil => cases h'.1
    | cons y ys =>
      obtain ⟨q', qs', G1, G2, he, rfl, h3, h4⟩ := h'
      cases he
      obtain ⟨rfl, rfl⟩ := rep_det h1 h3
      obtain ⟨rfl, rfl⟩ := repL_det h2 h4
      exact ⟨rfl, rfl⟩
theorem repM_det {m : Ptr → Node} : ∀ {xs ys : List (Bytes × Val)} {ps : List (Bytes × Option Ptr)} {F G : List Ptr},
    RepM m xs ps F → RepM m ys ps G → xs = ys ∧ F = G
  | [], ys, _, _, _, h, h' => by
    obtain ⟨rfl, rfl⟩ := h
    cases ys with
    | nil => exact ⟨rfl, h'.2.symm⟩
    | cons y ys => obtain ⟨_, _, _, _, h, _⟩ := h'; cases h
  | x :: xs, ys, _, _, _, h, h' => by
    obtain ⟨q, qs, F1, F2, rfl, rfl, h1, h2⟩ := h
    cases ys with
    | nil => cases h'.1
    | cons y ys =>
      obtain ⟨q', qs', G1, G2, he, rfl, h3, h4⟩ := h'
      obtain ⟨k, x⟩ := x
      obtain ⟨k', y⟩ := y
      cases he
      obtain ⟨rfl, rfl⟩ := rep_det h1 h3
      obtain ⟨rfl, rfl⟩ := repM_det h2 h4
      exact ⟨rfl, rfl⟩
end

/-! ## Trees in a heap -/

/-- `a` is a proper tree in a well-formed heap and none of its nodes can be handed out by a later allocation. -/
structure Good (h : Heap) (a : Option Ptr) (v : Val) (F : List Ptr) : Prop where
  inv : Inv h
  rep : Rep h.mem v a F
  nodup : F.Nodup
  live : ∀ q ∈ F, ¬Avail h q

/-- An operation that touched only the nodes `F`, the constants' hidden fields, and unused memory. -/
structure Frame (h : Heap) (F : List Ptr) (h' : Heap) : Prop where
  inv : Inv h'
  avail : ∀ q, Avail h' q → Avail h q
  mem : ∀ q, 5 ≤ q → q ∉ F → ¬Avail h q → h'.mem q = h.mem q

theorem Inv.dt_const {h h' : Heap} (I : Inv h) (I' : Inv h') {p : Ptr} (hp : p < 5) : (h'.mem p).dt = (h.mem p).dt := by
  rw [I.const p hp, I'.const p hp]

/-- Any other tree is untouched. -/
theorem Good.frame {h h' : Heap} {F G : List Ptr} {a : Option Ptr} {v : Val} (g : Good h a v G) (f : Frame h F h')
    (hd : ∀ q ∈ G, q ∉ F) : Good h' a v G where
  inv := f.inv
  rep := rep_frame g.rep ⟨fun q hq => f.mem q (rep_ge g.rep q hq) (hd q hq) (g.live q hq), fun _ hp => g.inv.dt_const f.inv hp⟩
  nodup := g.nodup
  live q hq ha := g.live q hq (f.avail q ha)

theorem Frame.refl {h : Heap} (I : Inv h) (F : List Ptr) : Frame h F h := ⟨I, fun _ => id, fun _ _ _ _ => rfl⟩

theorem Frame.trans {h h1 h2 : Heap} {F F1 : List Ptr} (a : Frame h F h1) (b : Frame h1 F1 h2)
    (hs : ∀ q ∈ F1, q ∈ F ∨ Avail h q) : Frame h F h2 where
  inv := b.inv
  avail q hq := a.avail q (b.avail q hq)
  mem q h5 hF ha := by
    rw [b.mem q h5 (fun hq => (hs q hq).elim hF ha) (fun h => ha (a.avail q h)), a.mem q h5 hF ha]

theorem Frame.mono {h h' : Heap} {F G : List Ptr} (f : Frame h F h') (hs : ∀ q ∈ F, q ∈ G) : Frame h G h' :=
  ⟨f.inv, f.avail, fun q h5 hG ha => f.mem q h5 (fun hq => hG (hs q hq)) ha⟩

theorem Grows.frame {h h' : Heap} (g : Grows h h') (F : List Ptr) : Frame h F h' :=
  ⟨g.inv, g.avail, fun q _ _ ha => g.mem q ha⟩

theorem Frame.upd {h : Heap} (I : Inv h) {p : Ptr} {F : List Ptr} (f : Node → Node) (hdt : p < 5 → (f (h.mem p)).dt = (h.mem p).dt)
    (ho : (f (h.mem p)).owner = (h.mem p).owner) (hp : 5 ≤ p → p ∈ F) : Frame h F (h.upd p f) where
  inv := I.upd p f hdt ho
  avail _ := id
  mem q h5 hF _ := upd_mem_ne _ _ (by rintro rfl; exact hF (hp h5))

theorem Frame.reset {h : Heap} (I : Inv h) {p : Ptr} {F : List Ptr} (t : VT) (hp : 5 ≤ p → p ∈ F) : Frame h F (reset h p t) where
  inv := I.reset p t
  avail q hq := (avail_reset _ _ _ _).1 hq
  mem q h5 hF _ := reset_mem_ne (by rintro rfl; exact hF (hp h5)) t

/-- The result of an operation on a tree with nodes `F`: the same pointer now represents `v`; nothing outside changed.
The new tree consists of old nodes, newly allocated ones, and nodes `X` of values that were handed to the operation. -/
structure UpdX (X : List Ptr) (h : Heap) (F : List Ptr) (h' : Heap) (a : Option Ptr) (v : Val) (F' : List Ptr) : Prop where
  good : Good h' a v F'
  frame : Frame h F h'
  sub : ∀ q ∈ F', q ∈ F ∨ q ∈ X ∨ Avail h q

/-- An operation that is not given other values. -/
abbrev Upd := UpdX []

theorem UpdX.mono {X Y : List Ptr} {h h' : Heap} {F F' : List Ptr} {a : Option Ptr} {v : Val} (x : UpdX X h F h' a v F')
    (hs : ∀ q ∈ X, q ∈ Y) : UpdX Y h F h' a v F' :=
  ⟨x.good, x.frame, fun q hq => (x.sub q hq).imp id (Or.imp (hs q) id)⟩

theorem UpdX.trans {X : List Ptr} {h h1 h2 : Heap} {F F1 F2 : List Ptr} {a : Option Ptr} {v1 v2 : Val} (x : Upd h F h1 a v1 F1)
    (y : UpdX X h1 F1 h2 a v2 F2) : UpdX X h F h2 a v2 F2 where
  good := y.good
  frame := x.frame.trans y.frame (fun q hq => (x.sub q hq).imp id (fun h => h.elim (fun h => by simp at h) id))
  sub q hq := (y.sub q hq).elim (fun h => (x.sub q h).imp id (fun h => h.elim (fun h => by simp at h) Or.inr))
    (fun h => h.elim (fun h => Or.inr (Or.inl h)) (fun h => Or.inr (Or.inr (x.frame.avail q h))))

/-! ## Sub-trees -/

/-- The sub-tree at a position (list of child indexes). -/
def Val.sub : Val → List Nat → Option Val
  | v, [] => some v
  | v, i :: π => (Val.kids v)[i]?.bind (Val.sub · π)

/-- Replace the `i`-th child. -/
def Val.setKid : Val → Nat → Val → Val
  | .obj ku kvs, i, w => .obj ku (kvs.modify i (fun kv => (kv.1, w)))
  | .arr xs, i, w => .arr (xs.set i w)
  | v, _, _ => v

/-- Replace the sub-tree at a position. -/
def Val.subst : Val → List Nat → Val → Val
  | _, [], w => w
  | v, i :: π, w =>
    match (Val.kids v)[i]? with
    | some x => Val.setKid v i (Val.subst x π w)
    | none => v

theorem repL_kid {m : Ptr → Node} {v : Val} {a : Option Ptr} {F : List Ptr} (h : Rep m v a F) {i : Nat} {x : Val}
    (hx : (Val.kids v)[i]? = some x) :
    ∃ p q F1 Fi F2, a = some p ∧ 5 ≤ p ∧ (Node.kids (m p))[i]? = some q ∧ F = p :: (F1 ++ Fi ++ F2) ∧ Rep m x q Fi ∧
      ∀ m' x' Fi', Agree m m' (p :: (F1 ++ F2)) → Rep m' x' q Fi' → Rep m' (Val.setKid v i x') a (p :: (F1 ++ Fi' ++ F2)) := by
  cases v with
  | obj ku kvs =>
    obtain ⟨p, F', rfl, h5, rfl, hd, rfl, hm⟩ := h
    obtain ⟨hk, hl⟩ := repM_iff.1 hm
    obtain ⟨q, F1, Fi, F2, hq, hps, rfl, h1, h2, h3⟩ := repL_cut hl hx
    refine ⟨p, q, F1, Fi, F2, rfl, h5, by simpa [Node.kids, hd] using hq, rfl, h2, ?_⟩
    intro m' x' Fi' ha hr
    have hp : m' p = m p := ha.1 p (by simp)
    refine ⟨p, _, rfl, h5, rfl, by rw [hp]; exact hd, by rw [hp], ?_⟩
    rw [hp]
    have hsnd : (kvs.modify i (fun kv => (kv.1, x'))).map Prod.snd = (kvs.map Prod.snd).take i ++ x' :: (kvs.map Prod.snd).drop (i + 1) := by
      have hi : i < kvs.length := by
        have := (List.getElem?_eq_some_iff.1 hx).1
        simpa [Val.kids] using this
      apply List.ext_getElem?
      intro j
      simp only [List.getElem?_map, List.getElem?_modify, List.getElem?_append, List.length_take, List.length_map, List.getElem?_take, List.getElem?_cons, List.getElem?_drop]
      by_cases hij : i = j
      · subst hij
        rw [if_neg (by omega), if_pos (by omega)]
        simp [List.getElem?_eq_getElem hi]
      · by_cases hlt : j < i
        · rw [if_pos (by omega)]; simp [hij, hlt]
        · rw [if_neg (by omega), if_neg (by omega)]
          have : i + 1 + (j - min i kvs.length - 1) = j := by omega
          rw [this]; simp [hij]
    refine repM_iff.2 ⟨?_, ?_⟩
    · rw [hk]
      apply List.ext_getElem?
      intro j
      simp only [List.getElem?_map, List.getElem?_modify]
      by_cases hij : i = j
      · subst hij; simp; cases kvs[i]? <;> simp
      · simp [hij]
    · rw [hsnd, hps]
      exact repL_glue (repL_frame h1 (ha.mono fun q hq => by simp [hq])) hr (repL_frame h3 (ha.mono fun q hq => by simp [hq]))
  | arr xs =>
    obtain ⟨p, F', rfl, h5, rfl, hd, hl⟩ := h
    obtain ⟨q, F1, Fi, F2, hq, hps, rfl, h1, h2, h3⟩ := repL_cut hl hx
    refine ⟨p, q, F1, Fi, F2, rfl, h5, by simpa [Node.kids, hd] using hq, rfl, h2, ?_⟩
    intro m' x' Fi' ha hr
    have hp : m' p = m p := ha.1 p (by simp)
    refine ⟨p, _, rfl, h5, rfl, by rw [hp]; exact hd, ?_⟩
    rw [hp, hps]
    have hi : i < xs.length := (List.getElem?_eq_some_iff.1 hx).1
    rw [show xs.set i x' = xs.take i ++ x' :: xs.drop (i + 1) from by rw [List.set_eq_take_append_cons_drop, if_pos hi]]
    exact repL_glue (repL_frame h1 (ha.mono fun q hq => by simp [hq])) hr (repL_frame h3 (ha.mono fun q hq => by simp [hq]))
  | _ => simp [Val.kids] at hx

/-- The pointer found by following child indexes. -/
def ptrAt (m : Ptr → Node) : Option Ptr → List Nat → Option (Option Ptr)
  | a, [] => some a
  | none, _ :: _ => none
  | some p, i :: π => (Node.kids (m p))[i]?.bind (ptrAt m · π)

/-- A sub-tree of a represented tree is represented by some pointer, and replacing what that pointer represents replaces
the sub-tree. -/
theorem rep_sub {m : Ptr → Node} : ∀ {π : List Nat} {r : Val} {a : Option Ptr} {R : List Ptr} {v : Val}, Rep m r a R → Val.sub r π = some v →
    ∃ b R1 F R2, R = R1 ++ F ++ R2 ∧ Rep m v b F ∧ ptrAt m a π = some b ∧
      ∀ m' v' F', Agree m m' (R1 ++ R2) → Rep m' v' b F' → Rep m' (Val.subst r π v') a (R1 ++ F' ++ R2)
  | [], r, a, R, v, h, hs => by
    cases hs
    exact ⟨a, [], R, [], by simp, h, by simp [ptrAt], fun m' v' F' _ hr => by simpa [Val.subst] using hr⟩
  | i :: π, r, a, R, v, h, hs => by
    simp only [Val.sub, Option.bind_eq_some_iff] at hs
    obtain ⟨x, hx, hs⟩ := hs
    obtain ⟨p, q, F1, Fi, F2, rfl, h5, hq, rfl, h2, hrep⟩ := repL_kid h hx
    obtain ⟨b, R1, F, R2, rfl, hb, hpt, hrep2⟩ := rep_sub h2 hs
    refine ⟨b, p :: (F1 ++ R1), F, R2 ++ F2, by simp, hb, by simp [ptrAt, hq, hpt], ?_⟩
    intro m' v' F' ha hr
    have := hrep m' _ _ (ha.mono fun q hq => by simp at hq ⊢; grind) (hrep2 m' v' F' (ha.mono fun q hq => by simp at hq ⊢; grind) hr)
    simp only [Val.subst, hx]
    have e : p :: (F1 ++ R1) ++ F' ++ (R2 ++ F2) = p :: (F1 ++ (R1 ++ F' ++ R2) ++ F2) := by simp
    rw [e]; exact this

/-- An operation on a sub-tree is the corresponding operation on the whole tree: everything else stays. -/
theorem Good.inside {h : Heap} {a : Option Ptr} {r v : Val} {R : List Ptr} {π : List Nat} (g : Good h a r R) (hs : Val.sub r π = some v) :
    ∃ b F, ptrAt h.mem a π = some b ∧ Good h b v F ∧ (∀ q ∈ F, q ∈ R) ∧
      ∀ X h' v' F', UpdX X h F h' b v' F' → (∀ q ∈ X, q ∉ R) → ∃ R', UpdX X h R h' a (Val.subst r π v') R' := by
  obtain ⟨b, R1, F, R2, rfl, hb, hpt, hrep⟩ := rep_sub g.rep hs
  have hnd := g.nodup
  rw [List.append_assoc, List.nodup_append] at hnd
  obtain ⟨hn1, hn2, hd1⟩ := hnd
  obtain ⟨hnF, hnR2, hd2⟩ := List.nodup_append.1 hn2
  refine ⟨b, F, hpt, ⟨g.inv, hb, hnF, fun q hq => g.live q (by simp [hq])⟩, fun q hq => by simp [hq], ?_⟩
  intro X h' v' F' u hX
  have hout : ∀ q ∈ R1 ++ R2, q ∉ F := by
    intro q hq hF
    rcases List.mem_append.1 hq with hq | hq
    · exact hd1 q hq q (by simp [hF]) rfl
    · exact hd2 q hF q hq rfl
  have hlive : ∀ q ∈ R1 ++ R2, ¬Avail h q := fun q hq => g.live q (by simp at hq ⊢; grind)
  have hge : ∀ q ∈ R1 ++ R2, 5 ≤ q := fun q hq => rep_ge g.rep q (by simp at hq ⊢; grind)
  have hdF' : ∀ q ∈ R1 ++ R2, q ∉ F' := fun q hq hF' => (u.sub q hF').elim (hout q hq)
    (fun h => h.elim (fun h => hX q h (by simp at hq ⊢; grind)) (hlive q hq))
  refine ⟨R1 ++ F' ++ R2, ⟨u.frame.inv, ?_, ?_, ?_⟩, u.frame.mono (fun q hq => by simp [hq]), ?_⟩
  · exact hrep h'.mem v' F' ⟨fun q hq => u.frame.mem q (hge q hq) (hout q hq) (hlive q hq), fun _ hp => g.inv.dt_const u.frame.inv hp⟩ u.good.rep
  · rw [List.append_assoc, List.nodup_append]
    refine ⟨hn1, ?_, ?_⟩
    · rw [List.nodup_append]
      refine ⟨u.good.nodup, hnR2, ?_⟩
      intro x hx y hy e
      subst e
      exact hdF' x (by simp [hy]) hx
    · intro x hx y hy e
      subst e
      rcases List.mem_append.1 hy with hy | hy
      · exact hdF' x (by simp [hx]) hy
      · exact hd1 x hx x (by simp [hy]) rfl
  · intro q hq
    rcases List.mem_append.1 hq with hq | hq
    · rcases List.mem_append.1 hq with hq | hq
      · exact fun ha => hlive q (by simp [hq]) (u.frame.avail q ha)
      · exact u.good.live q hq
    · exact fun ha => hlive q (by simp [hq]) (u.frame.avail q ha)
  · intro q hq
    rcases List.mem_append.1 hq with hq | hq
    · rcases List.mem_append.1 hq with hq | hq
      · exact Or.inl (by simp [hq])
      · exact (u.sub q hq).imp (fun h => by simp [h]) id
    · exact Or.inl (by simp [hq])

end Dxs.Heap
