import Verif.Heap.Keys

/-!
# A concrete memory, for the non-vacuity examples

The value `{"\/":1,"a":[true,nil,"h"]}` at address 5, parsed but with its keys not yet unescaped.
-/

namespace Dxs.Heap

theorem inv_init (grow : Nat → Nat) : Inv (Heap.init grow) where
  next5 := Nat.le_refl _
  const p hp := by
    have : p = 0 ∨ p = 1 ∨ p = 2 ∨ p = 3 ∨ p = 4 := by omega
    rcases this with rfl | rfl | rfl | rfl | rfl <;> rfl
  capPos c hc := absurd hc (by simp [Heap.init])
  lenLe c hc := absurd hc (by simp [Heap.init])
  nodup c hc := absurd hc (by simp [Heap.init])
  range c hc := absurd hc (by simp [Heap.init])
  disj c hc := absurd hc (by simp [Heap.init])
  owner p c hc := by simp [Heap.init, Node.zero] at hc
  pool c hc := by simp [Heap.init] at hc

/-- The nodes. -/
def exNode (p : Ptr) : Node :=
  if p = 5 then { Node.zero with dt := .object, kvs := [([92, 47], some 6), ([97], some 7)] }
  else if p = 6 then { Node.zero with dt := .int, cell := 1 }
  else if p = 7 then { Node.zero with dt := .array, arr := [some trueP, none, some 8] }
  else if p = 8 then { Node.zero with dt := .string, str := [104] }
  else (Heap.init id).mem p

/-- The memory. -/
def exHeap : Heap := { Heap.init id with mem := exNode, next := 9 }

/-- The tree at address 5. -/
def exKvs : List (Bytes × Val) := [([92, 47], .int 0 1), ([97], .arr [.tru, .nil, .str [104]])]

theorem exInv : Inv exHeap where
  next5 := by decide
  const p hp := by
    have : p = 0 ∨ p = 1 ∨ p = 2 ∨ p = 3 ∨ p = 4 := by omega
    rcases this with rfl | rfl | rfl | rfl | rfl <;> rfl
  capPos c hc := absurd hc (by simp [exHeap, Heap.init])
  lenLe c hc := absurd hc (by simp [exHeap, Heap.init])
  nodup c hc := absurd hc (by simp [exHeap, Heap.init])
  range c hc := absurd hc (by simp [exHeap, Heap.init])
  disj c hc := absurd hc (by simp [exHeap, Heap.init])
  owner p c hc := by
    simp only [exHeap, exNode] at hc
    repeat' split at hc
    all_goals simp [Heap.init, Node.zero] at hc
  pool c hc := by simp [exHeap, Heap.init] at hc

theorem exGood7 : Good exHeap (some 7) (.arr [.tru, .nil, .str [104]]) [7, 8] where
  inv := exInv
  rep := ⟨7, [8], rfl, by decide, rfl, rfl, some trueP, [none, some 8], [], [8], rfl, rfl, ⟨trueP, rfl, rfl, rfl⟩,
    none, [some 8], [], [8], rfl, rfl, ⟨rfl, rfl⟩, some 8, [], [8], [], rfl, rfl, ⟨8, rfl, rfl, rfl⟩, rfl, rfl⟩
  nodup := by decide
  live q hq := by
    rintro (h | ⟨c, hc, _⟩)
    · simp [exHeap] at h; simp at hq; omega
    · simp [exHeap, Heap.init] at hc

theorem exGood : Good exHeap (some 5) (.obj false exKvs) [5, 6, 7, 8] where
  inv := exInv
  rep := ⟨5, [6, 7, 8], rfl, by decide, rfl, rfl, rfl, some 6, [([97], some 7)], [6], [7, 8], rfl, rfl, ⟨6, rfl, rfl, rfl⟩,
    some 7, [], [7, 8], [], rfl, rfl, exGood7.rep, rfl, rfl⟩
  nodup := by decide
  live q hq := by
    rintro (h | ⟨c, hc, _⟩)
    · simp [exHeap] at h; simp at hq; omega
    · simp [exHeap, Heap.init] at hc

end Dxs.Heap
