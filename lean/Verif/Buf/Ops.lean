import Verif.Buf.Model

/-!
# `SetBinary`, `SetExtType` and `Binary` on slices (bin_value.go)

The tree and heap models keep the bytes of a binary value as a list. Here they are a slice, so that it is visible who else sees a write. Go's `append` writes
into the array of the slice when the result fits into its capacity, and allocates otherwise; how much it allocates is the parameter `g`.
-/

namespace Dxs.Buf

/-- The memory made of a list of arrays. -/
def mem (arrs : List Bytes) : Mem := fun i => (arrs[i]?).getD []

/-- `copy(a[off:], d)`. -/
def put (a : Bytes) (off : Nat) (d : Bytes) : Bytes := a.take off ++ d ++ a.drop (off + d.length)

/-- `append(s, d...)`; `g` gives the spare capacity of a new array. -/
def append (g : Nat → Nat → Nat) (arrs : List Bytes) (s : Slice) (d : Bytes) : Slice × List Bytes :=
  if s.len + d.length ≤ s.cap then ({ s with len := s.len + d.length }, arrs.modify s.arr (fun a => put a (s.off + s.len) d))
  else
    let b := s.read (mem arrs) ++ d
    ({ arr := arrs.length, off := 0, len := b.length, cap := b.length + g s.cap b.length }, arrs ++ [b ++ List.replicate (g s.cap b.length) 0])

/-- The nil slice. -/
def Slice.nil : Slice := ⟨0, 0, 0, 0⟩

/-- What is in a cell: a `VT_Binary` value, a `VT_ExBinary` value, a slice of the caller. -/
inductive Kind where
  | bin | exbin | buf
deriving DecidableEq, Repr

/-- A value with its `fbinary`, or a slice of the caller. -/
structure Cell where
  kind : Kind
  sl : Slice
deriving DecidableEq, Repr

/-- `Binary()`, bin_value.go:40-52; for the caller's slice the slice. -/
def Cell.binary (c : Cell) : Slice :=
  match c.kind with
  | .exbin => if c.sl.len > 0 then { c.sl with off := c.sl.off + 1, len := c.sl.len - 1, cap := c.sl.cap - 1 } else .nil
  | _ => c.sl

/-- `SetBinary`, bin_value.go:54-75. -/
def setBinary (g : Nat → Nat → Nat) (arrs : List Bytes) (c : Cell) (src : Slice) (clone : Bool) : Cell × List Bytes :=
  match c.kind with
  | .bin =>
    if clone then
      let (s, arrs) := append g arrs { c.sl with len := 0 } (src.read (mem arrs))
      (⟨.bin, s⟩, arrs)
    else (⟨.bin, src⟩, arrs)
  | .exbin =>
    if c.sl.len > 0 then
      let (s, arrs) := append g arrs { c.sl with len := 0 } ((c.sl.read (mem arrs)).take 1)
      let (s, arrs) := append g arrs s (src.read (mem arrs))
      (⟨.exbin, s⟩, arrs)
    else if clone then
      let (s, arrs) := append g arrs .nil (src.read (mem arrs))
      (⟨.bin, s⟩, arrs)
    else (⟨.bin, src⟩, arrs)
  | .buf => (c, arrs)

/-- `SetExtType`, bin_value.go:30-38. -/
def setExtType (g : Nat → Nat → Nat) (arrs : List Bytes) (c : Cell) (t : UInt8) : Cell × List Bytes :=
  match c.kind with
  | .exbin =>
    if c.sl.len > 0 then (c, arrs.modify c.sl.arr (fun a => put a c.sl.off [t]))
    else
      let (s, arrs) := append g arrs c.sl [t]
      (⟨.exbin, s⟩, arrs)
  | _ => (c, arrs)

/-- `b[k] = x` by the caller. -/
def poke (arrs : List Bytes) (c : Cell) (k : Nat) (x : UInt8) : List Bytes :=
  if c.kind = .buf ∧ k < c.sl.len then arrs.modify c.sl.arr (fun a => put a (c.sl.off + k) [x]) else arrs

/-- Several binary values and slices of the caller. -/
structure World where
  arrs : List Bytes
  cells : List Cell

/-- What a program does. -/
inductive Op where
  /-- a new value or slice with its own bytes -/
  | new (k : Kind) (d : Bytes)
  /-- `cells[i].SetBinary(cells[j].Binary(), clone)` -/
  | setBinary (i j : Nat) (clone : Bool)
  | setExtType (i : Nat) (t : UInt8)
  /-- the caller writes to a slice -/
  | poke (i k : Nat) (x : UInt8)

/-- One operation. -/
def step (g : Nat → Nat → Nat) (w : World) : Op → World
  | .new k d => ⟨w.arrs ++ [d], w.cells ++ [⟨k, ⟨w.arrs.length, 0, d.length, d.length⟩⟩]⟩
  | .setBinary i j clone =>
    match w.cells[i]?, w.cells[j]? with
    | some c, some s =>
      let (c', arrs) := setBinary g w.arrs c s.binary clone
      ⟨arrs, w.cells.set i c'⟩
    | _, _ => w
  | .setExtType i t =>
    match w.cells[i]? with
    | some c =>
      let (c', arrs) := setExtType g w.arrs c t
      ⟨arrs, w.cells.set i c'⟩
    | none => w
  | .poke i k x =>
    match w.cells[i]? with
    | some c => ⟨poke w.arrs c k x, w.cells⟩
    | none => w

/-- A program. -/
def run (g : Nat → Nat → Nat) (w : World) (ops : List Op) : World := ops.foldl (step g) w

/-- What is seen of a cell. -/
def Cell.view (arrs : List Bytes) (c : Cell) : Kind × Bytes := (c.kind, c.sl.read (mem arrs))

/-- What is seen. -/
def World.view (w : World) : List (Kind × Bytes) := w.cells.map (·.view w.arrs)

/-! ## Slices -/

/-- The slice lies in its array. -/
def WF (arrs : List Bytes) (s : Slice) : Prop := s.len ≤ s.cap ∧ (0 < s.cap → s.off + s.cap ≤ (mem arrs s.arr).length)

theorem put_length {a : Bytes} {off : Nat} {d : Bytes} (h : off + d.length ≤ a.length) : (put a off d).length = a.length := by
  unfold put; simp; omega

theorem mem_modify (arrs : List Bytes) (i : Nat) (f : Bytes → Bytes) (hf : f [] = []) (j : Nat) : mem (arrs.modify i f) j = if i = j then f (mem arrs j) else mem arrs j := by
  unfold mem
  rw [List.getElem?_modify]
  by_cases h : i = j
  · simp only [h, if_true]; cases arrs[j]? <;> simp [hf]
  · simp only [h, if_false]; cases arrs[j]? <;> simp

theorem mem_modify_lt (arrs : List Bytes) {i : Nat} (hi : i < arrs.length) (f : Bytes → Bytes) (j : Nat) :
    mem (arrs.modify i f) j = if i = j then f (mem arrs j) else mem arrs j := by
  unfold mem
  rw [List.getElem?_modify]
  by_cases h : i = j
  · subst h; simp [hi]
  · simp only [h, if_false]; cases arrs[j]? <;> simp

theorem mem_append_lt (arrs : List Bytes) (b : Bytes) {j : Nat} (h : j ≠ arrs.length) : mem (arrs ++ [b]) j = mem arrs j := by
  unfold mem
  by_cases hj : j < arrs.length
  · rw [List.getElem?_append_left hj]
  · rw [List.getElem?_eq_none (by simp; omega), List.getElem?_eq_none (by omega)]

theorem mem_append_new (arrs : List Bytes) (b : Bytes) : mem (arrs ++ [b]) arrs.length = b := by simp [mem]

theorem wf_lt {arrs : List Bytes} {s : Slice} (h : WF arrs s) (hc : 0 < s.cap) : s.arr < arrs.length := by
  refine Nat.lt_of_not_le fun hn => ?_
  have := h.2 hc
  rw [mem, List.getElem?_eq_none hn] at this
  simp at this
  omega

theorem read_length {arrs : List Bytes} {s : Slice} (h : WF arrs s) : (s.read (mem arrs)).length = s.len := by
  unfold Slice.read
  have := h.1
  by_cases hc : 0 < s.cap
  · have := h.2 hc
    simp
    omega
  · simp
    omega

theorem put_read {a : Bytes} {off n k : Nat} {d : Bytes} (h : off + d.length ≤ a.length) (hk : n + d.length = k) : ((put a (off + n) d).drop off).take k = ((a.drop off).take n) ++ d ∨ a.length < off + k := by
  by_cases hl : a.length < off + k
  · exact .inr hl
  left
  subst hk
  unfold put
  rw [List.append_assoc, List.drop_append_of_le_length (by simp; omega), List.take_append, List.drop_take]
  have e : ((a.drop off).take n).length = n := by simp; omega
  rw [show off + n - off = n by omega, e, List.take_of_length_le (by omega), show n + d.length - n = d.length by omega, List.take_left]

/-- The result of `append` has the old bytes followed by the new ones. -/
theorem append_read (g : Nat → Nat → Nat) {arrs : List Bytes} {s : Slice} (h : WF arrs s) (d : Bytes) :
    (append g arrs s d).1.read (mem (append g arrs s d).2) = s.read (mem arrs) ++ d := by
  unfold append
  have h1 := h.1
  have h2 := h.2
  split
  · rename_i hf
    by_cases hc : 0 < s.cap
    · have h2 := h2 hc
      unfold Slice.read
      dsimp only
      rw [mem_modify_lt arrs (wf_lt h hc), if_pos rfl]
      rcases put_read (a := mem arrs s.arr) (off := s.off) (n := s.len) (d := d) (by omega) rfl with hp | hp
      · exact hp
      · omega
    · have hd : d = [] := by cases d with | nil => rfl | cons x d => simp at hf; omega
      subst hd
      have : s.len = 0 := by omega
      unfold Slice.read
      simp [this]
  · dsimp only
    simp only [Slice.read, mem_append_new, List.drop_zero]
    rw [List.take_left]

/-- The result of `append` lies in its array. -/
theorem append_wf (g : Nat → Nat → Nat) {arrs : List Bytes} {s : Slice} (h : WF arrs s) (d : Bytes) : WF (append g arrs s d).2 (append g arrs s d).1 := by
  unfold append
  have h1 := h.1
  have h2 := h.2
  split
  · rename_i hf
    refine ⟨hf, fun hc => ?_⟩
    dsimp only at hc ⊢
    rw [mem_modify_lt arrs (wf_lt h hc), if_pos rfl, put_length (by have := h2 hc; omega)]
    exact h2 hc
  · refine ⟨by dsimp only; omega, fun _ => ?_⟩
    dsimp only
    rw [mem_append_new]
    simp
    omega

/-- An array other than the one written to stays as it is. -/
theorem append_other (g : Nat → Nat → Nat) {arrs : List Bytes} {s : Slice} (h : WF arrs s) (d : Bytes) {j : Nat} (h1 : j < arrs.length) (h2 : 0 < s.cap → j ≠ s.arr) :
    mem (append g arrs s d).2 j = mem arrs j := by
  unfold append
  split
  · rename_i hf
    by_cases hc : 0 < s.cap
    · dsimp only
      rw [mem_modify_lt arrs (wf_lt h hc), if_neg (fun e => h2 hc e.symm)]
    · have hd : d = [] := by cases d with | nil => rfl | cons x d => simp at hf; omega
      subst hd
      have e : (fun a => put a (s.off + s.len) []) = id := by funext a; simp [put]
      dsimp only
      rw [e, List.modify_id]
  · exact mem_append_lt arrs _ (by omega)

theorem append_length (g : Nat → Nat → Nat) (arrs : List Bytes) (s : Slice) (d : Bytes) : arrs.length ≤ (append g arrs s d).2.length := by
  unfold append
  split <;> simp

/-- The result is in the array of the slice, or in a new one. -/
theorem append_arr (g : Nat → Nat → Nat) (arrs : List Bytes) (s : Slice) (d : Bytes) :
    ((append g arrs s d).1.arr = s.arr ∧ (append g arrs s d).1.cap = s.cap) ∨ (append g arrs s d).1.arr = arrs.length := by
  unfold append
  split
  · exact .inl ⟨rfl, rfl⟩
  · exact .inr rfl

/-! ## Operations on one cell -/

/-- The operation on the slice `s` is of no concern to anyone else: it writes only to the array of `s` and to new ones. -/
structure Local (arrs : List Bytes) (s : Slice) (arrs' : List Bytes) (s' : Slice) : Prop where
  wf : WF arrs' s'
  own : (s'.arr = s.arr ∧ s'.cap = s.cap) ∨ arrs.length ≤ s'.arr ∨ s'.cap = 0
  other : ∀ j, j < arrs.length → (0 < s.cap → j ≠ s.arr) → mem arrs' j = mem arrs j
  len : arrs.length ≤ arrs'.length

theorem Local.refl {arrs : List Bytes} {s : Slice} (h : WF arrs s) : Local arrs s arrs s := ⟨h, .inl ⟨rfl, rfl⟩, fun _ _ _ => rfl, Nat.le_refl _⟩

theorem Local.trans {a b c : List Bytes} {s t u : Slice} (h1 : Local a s b t) (h2 : Local b t c u) : Local a s c u := by
  refine ⟨h2.wf, ?_, ?_, Nat.le_trans h1.len h2.len⟩
  · rcases h2.own with ⟨e1, e2⟩ | e | e
    · rcases h1.own with ⟨f1, f2⟩ | f | f
      · exact .inl ⟨e1.trans f1, e2.trans f2⟩
      · exact .inr (.inl (by omega))
      · exact .inr (.inr (by omega))
    · exact .inr (.inl (Nat.le_trans h1.len e))
    · exact .inr (.inr e)
  · intro j hj hne
    rw [h2.other j (Nat.lt_of_lt_of_le hj h1.len) ?_, h1.other j hj hne]
    intro hc
    rcases h1.own with ⟨f1, f2⟩ | f | f
    · rw [f1]; exact hne (by omega)
    · omega
    · omega

theorem append_local (g : Nat → Nat → Nat) {arrs : List Bytes} {s : Slice} (h : WF arrs s) (d : Bytes) : Local arrs s (append g arrs s d).2 (append g arrs s d).1 :=
  ⟨append_wf g h d, (append_arr g arrs s d).imp_right fun e => .inl (Nat.le_of_eq e.symm), fun _ => append_other g h d, append_length g arrs s d⟩

theorem wf_zero {arrs : List Bytes} {s : Slice} (h : WF arrs s) : WF arrs { s with len := 0 } := ⟨Nat.zero_le _, h.2⟩

theorem read_zero (m : Mem) (s : Slice) : ({ s with len := 0 } : Slice).read m = [] := by simp [Slice.read]

theorem wf_nil (arrs : List Bytes) : WF arrs .nil := ⟨Nat.le_refl _, fun h => absurd h (by decide)⟩

theorem nil_local {arrs : List Bytes} {s : Slice} (g : Nat → Nat → Nat) (d : Bytes) : Local arrs s (append g arrs .nil d).2 (append g arrs .nil d).1 := by
  have h := append_local g (wf_nil arrs) d
  refine ⟨h.wf, ?_, fun j hj _ => h.other j hj (fun h => absurd h (by decide)), h.len⟩
  rcases h.own with ⟨_, e⟩ | e
  · exact .inr (.inr e)
  · exact .inr e

theorem put_one {a : Bytes} {i : Nat} (h : i < a.length) (x : UInt8) : put a i [x] = a.set i x := by
  rw [List.set_eq_take_append_cons_drop, if_pos h]
  simp [put]

/-- A write into the array of `s`. -/
theorem write_local {arrs : List Bytes} {s : Slice} (h : WF arrs s) {k : Nat} (hk : k < s.len) (x : UInt8) :
    Local arrs s (arrs.modify s.arr (fun a => put a (s.off + k) [x])) s := by
  have hc : 0 < s.cap := by have := h.1; omega
  have hl := wf_lt h hc
  have h1 := h.1
  have h2 := h.2 hc
  refine ⟨⟨h1, fun _ => ?_⟩, .inl ⟨rfl, rfl⟩, ?_, by simp⟩
  · rw [mem_modify_lt arrs hl, if_pos rfl, put_length (by simp; omega)]; exact h2
  · intro j _ hj
    rw [mem_modify_lt arrs hl, if_neg (fun e => hj hc e.symm)]

/-- A write is seen. -/
theorem write_read {arrs : List Bytes} {s : Slice} (h : WF arrs s) {k : Nat} (hk : k < s.len) (x : UInt8) :
    s.read (mem (arrs.modify s.arr (fun a => put a (s.off + k) [x]))) = (s.read (mem arrs)).set k x := by
  have hc : 0 < s.cap := by have := h.1; omega
  have h1 := h.1
  have h2 := h.2 hc
  unfold Slice.read
  rw [mem_modify_lt arrs (wf_lt h hc), if_pos rfl]
  rw [put_one (by omega), List.drop_set, if_neg (by omega), show s.off + k - s.off = k by omega, List.take_set]

/-! ## What the operations do -/

/-- `Binary()` of what is seen. -/
def binaryV : Kind × Bytes → Bytes
  | (.exbin, d) => d.drop 1
  | (_, d) => d

/-- `SetBinary` on what is seen. -/
def setBinaryV (d : Bytes) : Kind × Bytes → Kind × Bytes
  | (.bin, _) => (.bin, d)
  | (.exbin, []) => (.bin, d)
  | (.exbin, t :: _) => (.exbin, t :: d)
  | (.buf, x) => (.buf, x)

/-- `SetExtType` on what is seen. -/
def setExtTypeV (t : UInt8) : Kind × Bytes → Kind × Bytes
  | (.exbin, []) => (.exbin, [t])
  | (.exbin, _ :: d) => (.exbin, t :: d)
  | x => x

/-- The caller's write on what is seen. -/
def pokeV (k : Nat) (x : UInt8) : Kind × Bytes → Kind × Bytes
  | (.buf, d) => (.buf, d.set k x)
  | c => c

theorem binary_read {arrs : List Bytes} {c : Cell} (h : WF arrs c.sl) : c.binary.read (mem arrs) = binaryV (c.view arrs) := by
  obtain ⟨k, s⟩ := c
  have hl := read_length h
  cases k <;> simp only [Cell.binary, Cell.view, binaryV]
  split
  · simp only [Slice.read]
    rw [List.drop_take, List.drop_drop]
  · rename_i hz
    have : s.read (mem arrs) = [] := List.eq_nil_of_length_eq_zero (by rw [hl]; exact Nat.eq_zero_of_not_pos hz)
    rw [this]
    simp [Slice.read, Slice.nil]

theorem binary_wf {arrs : List Bytes} {c : Cell} (h : WF arrs c.sl) : WF arrs c.binary := by
  obtain ⟨k, s⟩ := c
  cases k <;> simp only [Cell.binary] <;> first | exact h | skip
  split
  · rename_i hl
    have h1 := h.1
    refine ⟨?_, fun hc => ?_⟩ <;> dsimp only at *
    · omega
    · have := h.2 (by omega)
      omega
  · exact wf_nil arrs

theorem take_one {arrs : List Bytes} {s : Slice} (hp : 0 < s.len) : ({ s with len := 1 } : Slice).read (mem arrs) = (s.read (mem arrs)).take 1 := by
  simp only [Slice.read, List.take_take]
  congr 1
  omega

/-- `append(v.fbinary[:0], v.fbinary[0])` -/
theorem append_first (g : Nat → Nat → Nat) {arrs : List Bytes} {s : Slice} (h : WF arrs s) (hp : 0 < s.len) :
    append g arrs { s with len := 0 } ((s.read (mem arrs)).take 1) = ({ s with len := 1 }, arrs) := by
  have h1 := h.1
  have h2 := h.2 (by omega)
  have hl := wf_lt h (by omega)
  have hr := read_length h
  cases hd : s.read (mem arrs) with
  | nil => rw [hd] at hr; simp at hr; omega
  | cons t d =>
    have ht : (mem arrs s.arr)[s.off]? = some t := by
      have := congrArg (·[0]?) hd
      simpa [Slice.read, hp] using this
    unfold append
    rw [if_pos (by simp; omega)]
    simp only [List.take_succ_cons, List.take_zero, List.length_singleton]
    simp only [Nat.zero_add, Nat.add_zero, Prod.mk.injEq, true_and]
    apply List.ext_getElem?
    intro j
    rw [List.getElem?_modify]
    by_cases e : s.arr = j
    · subst e
      have ha : mem arrs s.arr = arrs[s.arr] := by simp [mem, hl]
      rw [ha] at ht h2
      simp only [if_true, List.getElem?_eq_getElem hl, Option.map_eq_map, Option.map_some, Option.some.injEq]
      rw [put_one (by omega)]
      apply List.ext_getElem?
      intro i
      rw [List.getElem?_set]
      split
      · rename_i e; subst e; rw [ht]; split <;> first | rfl | omega
      · rfl
    · simp [e]

/-- After `SetBinary` the value has the bytes given, whatever shares memory with whatever. -/
theorem setBinary_view (g : Nat → Nat → Nat) {arrs : List Bytes} {c : Cell} (h : WF arrs c.sl) (src : Slice) (clone : Bool) :
    (setBinary g arrs c src clone).1.view (setBinary g arrs c src clone).2 = setBinaryV (src.read (mem arrs)) (c.view arrs) := by
  obtain ⟨k, s⟩ := c
  have hl := read_length h
  cases k with
  | buf => rfl
  | bin =>
    simp only [setBinary, Cell.view, setBinaryV]
    cases clone
    · rfl
    · have := append_read g (wf_zero h) (src.read (mem arrs))
      rw [read_zero, List.nil_append] at this
      simp only [if_true, this]
  | exbin =>
    simp only [setBinary]
    split
    · rename_i hp
      dsimp only at hp hl h
      rw [append_first g h hp]
      have := append_read g (s := { s with len := 1 }) (arrs := arrs) ⟨by have := h.1; dsimp only; omega, h.2⟩ (src.read (mem arrs))
      rw [take_one hp] at this
      simp only [Cell.view, this]
      cases hr : s.read (mem arrs) with
      | nil => rw [hr] at hl; simp at hl; omega
      | cons t d => rfl
    · rename_i hz
      have hr : s.read (mem arrs) = [] := List.eq_nil_of_length_eq_zero (by rw [hl]; exact Nat.eq_zero_of_not_pos hz)
      simp only [Cell.view, hr, setBinaryV]
      cases clone
      · rfl
      · have := append_read g (wf_nil arrs) (src.read (mem arrs))
        simp only [if_true, this]
        simp [Slice.read, Slice.nil]

theorem setBinary_local (g : Nat → Nat → Nat) {arrs : List Bytes} {c : Cell} (h : WF arrs c.sl) (src : Slice) :
    Local arrs c.sl (setBinary g arrs c src true).2 (setBinary g arrs c src true).1.sl := by
  obtain ⟨k, s⟩ := c
  cases k with
  | buf => exact Local.refl h
  | bin =>
    have := append_local g (wf_zero h) (src.read (mem arrs))
    exact ⟨this.wf, this.own, this.other, this.len⟩
  | exbin =>
    simp only [setBinary]
    split
    · rename_i hp
      rw [append_first g h hp]
      have := append_local g (s := { s with len := 1 }) (arrs := arrs) ⟨by have := h.1; dsimp only at *; omega, h.2⟩ (src.read (mem arrs))
      exact ⟨this.wf, this.own, this.other, this.len⟩
    · exact nil_local g _

theorem setExtType_local (g : Nat → Nat → Nat) {arrs : List Bytes} {c : Cell} (h : WF arrs c.sl) (t : UInt8) :
    Local arrs c.sl (setExtType g arrs c t).2 (setExtType g arrs c t).1.sl := by
  obtain ⟨k, s⟩ := c
  cases k with
  | buf => exact Local.refl h
  | bin => exact Local.refl h
  | exbin =>
    simp only [setExtType]
    split
    · rename_i hp
      exact write_local h (k := 0) hp t
    · exact append_local g h [t]

theorem setExtType_view (g : Nat → Nat → Nat) {arrs : List Bytes} {c : Cell} (h : WF arrs c.sl) (t : UInt8) :
    (setExtType g arrs c t).1.view (setExtType g arrs c t).2 = setExtTypeV t (c.view arrs) := by
  obtain ⟨k, s⟩ := c
  have hl := read_length h
  cases k with
  | buf => rfl
  | bin => rfl
  | exbin =>
    simp only [setExtType]
    split
    · rename_i hp
      have := write_read h (k := 0) hp t
      dsimp only [Nat.add_zero] at this hl
      simp only [Cell.view, this]
      cases hr : s.read (mem arrs) with
      | nil => rw [hr] at hl; simp at hl; omega
      | cons x d => rfl
    · rename_i hz
      have hr : s.read (mem arrs) = [] := List.eq_nil_of_length_eq_zero (by rw [hl]; exact Nat.eq_zero_of_not_pos hz)
      have := append_read g h [t]
      dsimp only at this
      simp only [Cell.view, this, hr]
      rfl

theorem poke_local {arrs : List Bytes} {c : Cell} (h : WF arrs c.sl) (k : Nat) (x : UInt8) : Local arrs c.sl (poke arrs c k x) c.sl := by
  unfold poke
  split
  · rename_i hk; exact write_local h hk.2 x
  · exact Local.refl h

theorem poke_view {arrs : List Bytes} {c : Cell} (h : WF arrs c.sl) (k : Nat) (x : UInt8) : c.view (poke arrs c k x) = pokeV k x (c.view arrs) := by
  obtain ⟨kd, s⟩ := c
  have hl := read_length h
  unfold poke
  cases kd with
  | bin => rfl
  | exbin => rfl
  | buf =>
    simp only [true_and]
    split
    · rename_i hk
      have := write_read h hk x
      simp only [Cell.view, pokeV, this]
    · rename_i hk
      simp only [Cell.view, pokeV]
      rw [List.set_eq_of_length_le (by rw [hl]; dsimp only at *; omega)]

/-! ## Programs -/

/-- Each cell has its own array. -/
structure Apart (w : World) : Prop where
  wf : ∀ c ∈ w.cells, WF w.arrs c.sl
  sep : ∀ (i j : Nat) (c d : Cell), i ≠ j → w.cells[i]? = some c → w.cells[j]? = some d → 0 < c.sl.cap → 0 < d.sl.cap → c.sl.arr ≠ d.sl.arr

/-- An operation of no concern to others, seen in the world. -/
theorem Apart.act {w : World} (S : Apart w) {i : Nat} {c c' : Cell} {arrs' : List Bytes} (hi : w.cells[i]? = some c) (hl : Local w.arrs c.sl arrs' c'.sl) :
    Apart ⟨arrs', w.cells.set i c'⟩ ∧ (⟨arrs', w.cells.set i c'⟩ : World).view = w.view.set i (c'.view arrs') := by
  have hcap : ∀ d ∈ w.cells, 0 < d.sl.cap → d.sl.arr < w.arrs.length := fun d hd hc => wf_lt (S.wf d hd) hc
  have hkeep : ∀ j d, j ≠ i → w.cells[j]? = some d → 0 < d.sl.cap → mem arrs' d.sl.arr = mem w.arrs d.sl.arr := by
    intro j d hj hd hc
    exact hl.other _ (hcap d (List.mem_of_getElem? hd) hc) (fun h0 e => S.sep j i d c hj hd hi hc h0 e)
  have hview : ∀ j d, j ≠ i → w.cells[j]? = some d → d.view arrs' = d.view w.arrs := by
    intro j d hj hd
    unfold Cell.view
    congr 1
    by_cases hc : 0 < d.sl.cap
    · unfold Slice.read; rw [hkeep j d hj hd hc]
    · have := (S.wf d (List.mem_of_getElem? hd)).1
      have h0 : d.sl.len = 0 := by omega
      unfold Slice.read; rw [h0]; simp
  have hget : ∀ j d, (w.cells.set i c')[j]? = some d → (j = i ∧ d = c') ∨ (j ≠ i ∧ w.cells[j]? = some d) := by
    intro j d hd
    rw [List.getElem?_set] at hd
    split at hd
    · rename_i e
      split at hd
      · cases hd; exact .inl ⟨e.symm, rfl⟩
      · cases hd
    · rename_i e; exact .inr ⟨fun h => e h.symm, hd⟩
  have hcross : ∀ j d, j ≠ i → w.cells[j]? = some d → 0 < c'.sl.cap → 0 < d.sl.cap → c'.sl.arr ≠ d.sl.arr := by
    intro j d hj hd h0 h1 e
    rcases hl.own with ⟨e1, e2⟩ | e1 | e1
    · exact S.sep i j c d (fun h => hj h.symm) hi hd (by omega) h1 (by rw [← e1, e])
    · have := hcap d (List.mem_of_getElem? hd) h1
      omega
    · omega
  refine ⟨⟨?_, ?_⟩, ?_⟩
  · intro d hd
    obtain ⟨j, hj⟩ := List.getElem?_of_mem hd
    rcases hget j d hj with ⟨_, rfl⟩ | ⟨hji, hd⟩
    · exact hl.wf
    · have h := S.wf d (List.mem_of_getElem? hd)
      refine ⟨h.1, fun hc => ?_⟩
      dsimp only
      rw [hkeep j d hji hd hc]
      exact h.2 hc
  · intro j k d e hjk hd he h0 h1
    rcases hget j d hd with ⟨rfl, rfl⟩ | ⟨hj, hd2⟩ <;> rcases hget k e he with ⟨rfl, rfl⟩ | ⟨hk, he2⟩
    · exact absurd rfl hjk
    · exact hcross k e hk he2 h0 h1
    · exact fun q => hcross j d hj hd2 h1 h0 q.symm
    · exact S.sep j k d e hjk hd2 he2 h0 h1
  · unfold World.view
    apply List.ext_getElem?
    intro j
    simp only [List.getElem?_map, List.getElem?_set, List.length_map]
    by_cases e : i = j
    · subst e
      simp only [if_true]
      split <;> simp
    · simp only [e, if_false]
      cases hd : w.cells[j]? with
      | none => rfl
      | some d => simp [hview j d (fun h => e h.symm) hd]

theorem Apart.new {w : World} (S : Apart w) (k : Kind) (d : Bytes) (g : Nat → Nat → Nat) : Apart (step g w (.new k d)) ∧ (step g w (.new k d)).view = w.view ++ [(k, d)] := by
  have hmem : ∀ c ∈ w.cells, 0 < c.sl.cap → c.sl.arr < w.arrs.length := fun c hc h0 => wf_lt (S.wf c hc) h0
  refine ⟨⟨?_, ?_⟩, ?_⟩
  · intro c hc
    simp only [Buf.step, List.mem_append, List.mem_singleton] at hc ⊢
    rcases hc with hc | rfl
    · refine ⟨(S.wf c hc).1, fun h0 => ?_⟩
      rw [mem_append_lt _ _ (by have := hmem c hc h0; omega)]
      exact (S.wf c hc).2 h0
    · exact ⟨Nat.le_refl _, fun _ => by dsimp only; rw [mem_append_new]; omega⟩
  · intro i j c e hij hc he h0 h1
    simp only [Buf.step, List.getElem?_append] at hc he
    split at hc <;> split at he
    · exact S.sep i j c e hij hc he h0 h1
    · rw [List.getElem?_singleton] at he
      split at he
      · cases he; have := hmem c (List.mem_of_getElem? hc) h0; dsimp only; omega
      · cases he
    · rw [List.getElem?_singleton] at hc
      split at hc
      · cases hc; have := hmem e (List.mem_of_getElem? he) h1; dsimp only; omega
      · cases hc
    · rw [List.getElem?_singleton] at hc he
      split at hc <;> split at he
      · omega
      · cases he
      · cases hc
      · cases hc
  · simp only [Buf.step, World.view, List.map_append, List.map_cons, List.map_nil]
    congr 1
    · apply List.map_congr_left
      intro c hc
      unfold Cell.view
      congr 1
      unfold Slice.read
      by_cases h0 : 0 < c.sl.cap
      · rw [mem_append_lt _ _ (by have := hmem c hc h0; omega)]
      · have := (S.wf c hc).1
        have h0 : c.sl.len = 0 := by omega
        rw [h0]; simp
    · simp [Cell.view, Slice.read, mem_append_new]

/-- One operation on what is seen: every cell has its own bytes. -/
def stepV (w : List (Kind × Bytes)) : Op → List (Kind × Bytes)
  | .new k d => w ++ [(k, d)]
  | .setBinary i j _ =>
    match w[j]? with
    | some s => w.modify i (setBinaryV (binaryV s))
    | none => w
  | .setExtType i t => w.modify i (setExtTypeV t)
  | .poke i k x => w.modify i (pokeV k x)

/-- A program on what is seen. -/
def runV (w : List (Kind × Bytes)) (ops : List Op) : List (Kind × Bytes) := ops.foldl stepV w

/-- `SetBinary` only with `valueClone`. -/
def Op.Copying : Op → Prop
  | .setBinary _ _ clone => clone = true
  | _ => True

theorem view_get {w : World} {i : Nat} {c : Cell} (h : w.cells[i]? = some c) : w.view[i]? = some (c.view w.arrs) := by simp [World.view, h]

theorem view_none {w : World} {i : Nat} (h : w.cells[i]? = none) : w.view[i]? = none := by simp only [World.view, List.getElem?_map, h]; rfl

theorem set_modify {α : Type} {l : List α} {i : Nat} {x : α} (h : l[i]? = some x) (f : α → α) : l.set i (f x) = l.modify i f := by
  apply List.ext_getElem?
  intro j
  rw [List.getElem?_set, List.getElem?_modify]
  by_cases e : i = j
  · subst e
    simp only [if_true, h]
    rw [if_pos (List.getElem?_eq_some_iff.1 h).1]
    rfl
  · simp [e]

theorem modify_none {α : Type} {l : List α} {i : Nat} (h : l[i]? = none) (f : α → α) : l.modify i f = l :=
  List.modify_eq_self (by simpa using h)

theorem step_view (g : Nat → Nat → Nat) {w : World} (S : Apart w) {op : Op} (hop : op.Copying) : Apart (step g w op) ∧ (step g w op).view = stepV w.view op := by
  cases op with
  | new k d => exact S.new k d g
  | setBinary i j clone =>
    have e : clone = true := hop
    subst e
    cases hj : w.cells[j]? with
    | none =>
      have : step g w (.setBinary i j true) = w := by simp only [step, hj]; cases w.cells[i]? <;> rfl
      rw [this]
      exact ⟨S, by simp only [stepV, view_none hj]⟩
    | some s =>
      cases hi : w.cells[i]? with
      | none =>
        have : step g w (.setBinary i j true) = w := by simp only [step, hi]
        rw [this]
        exact ⟨S, by simp only [stepV, view_get hj, modify_none (view_none hi)]⟩
      | some c =>
        have hc := S.wf c (List.mem_of_getElem? hi)
        have hs := S.wf s (List.mem_of_getElem? hj)
        have := S.act hi (setBinary_local g hc s.binary)
        simp only [step, hi, hj]
        refine ⟨this.1, this.2.trans ?_⟩
        rw [setBinary_view g hc, binary_read hs, set_modify (view_get hi)]
        simp only [stepV, view_get hj]
  | setExtType i t =>
    cases hi : w.cells[i]? with
    | none =>
      simp only [step, hi, stepV, modify_none (view_none hi)]
      exact ⟨S, trivial⟩
    | some c =>
      have hc := S.wf c (List.mem_of_getElem? hi)
      have := S.act hi (setExtType_local g hc t)
      simp only [step, hi]
      refine ⟨this.1, this.2.trans ?_⟩
      rw [setExtType_view g hc, set_modify (view_get hi)]
      rfl
  | poke i k x =>
    cases hi : w.cells[i]? with
    | none =>
      simp only [step, hi, stepV, modify_none (view_none hi)]
      exact ⟨S, trivial⟩
    | some c =>
      have hc := S.wf c (List.mem_of_getElem? hi)
      have := S.act hi (poke_local hc k x)
      have e : w.cells.set i c = w.cells := by
        have := set_modify hi id
        rwa [List.modify_id] at this
      rw [e] at this
      simp only [step, hi]
      refine ⟨this.1, this.2.trans ?_⟩
      rw [poke_view hc, set_modify (view_get hi)]
      rfl

theorem run_view (g : Nat → Nat → Nat) : ∀ (ops : List Op) {w : World}, Apart w → (∀ op ∈ ops, op.Copying) → Apart (run g w ops) ∧ (run g w ops).view = runV w.view ops
  | [], w, S, _ => ⟨S, rfl⟩
  | op :: ops, w, S, h => by
    obtain ⟨h1, h2⟩ := step_view g S (h op (by simp))
    have := run_view g ops h1 (fun o ho => h o (by simp [ho]))
    simp only [run, runV, List.foldl_cons, ← h2] at this ⊢
    exact this

end Dxs.Buf
