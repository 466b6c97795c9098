import Verif.Bson.Decode

/-! Termination of the BSON decoder. -/

namespace Dxs.Bson
open Spec

theorem sliceTo_ne_loop (hid b : Bytes) (n : Nat) : sliceTo hid n b ≠ .loop := by
  unfold sliceTo; split <;> simp
theorem slice_ne_loop (hid b : Bytes) (n m : Nat) : slice hid n m b ≠ .loop := by
  unfold slice; split <;> simp
theorem sliceFrom_ne_loop (b : Bytes) (n : Nat) : MsgPack.sliceFrom n b ≠ .loop := by
  unfold MsgPack.sliceFrom; split <;> simp
theorem at_ne_loop (b : Bytes) (n : Nat) : at_ b n ≠ .loop := by
  unfold at_; split <;> simp
theorem uint32_ne_loop (hid b : Bytes) : uint32 hid b ≠ .loop := by
  unfold uint32
  rw [Ne, Res.bind_eq_loop]
  rintro (h | ⟨a, _, h⟩)
  · exact sliceTo_ne_loop _ _ _ h
  · split at h <;> simp at h
theorem uint64_ne_loop (hid b : Bytes) : uint64 hid b ≠ .loop := by
  unfold uint64
  rw [Ne, Res.bind_eq_loop]
  rintro (h | ⟨a, _, h⟩)
  · exact sliceTo_ne_loop _ _ _ h
  · split at h <;> simp at h

theorem bind_ne_loop {α β : Type} {r : Res α} {g : α → Res β} (h : r ≠ .loop) (hg : ∀ a, r = .ok a → g a ≠ .loop) :
    (r >>= g) ≠ .loop := by
  rw [Ne, Res.bind_eq_loop]
  rintro (h' | ⟨a, h1, h2⟩)
  · exact h h'
  · exact hg a h1 h2

theorem parseBinary_ne_loop (hid b : Bytes) : parseBinary hid b ≠ .loop := by
  unfold parseBinary
  refine bind_ne_loop (uint32_ne_loop _ _) fun n _ => ?_
  refine bind_ne_loop (sliceFrom_ne_loop _ _) fun b _ => ?_
  refine bind_ne_loop (at_ne_loop _ _) fun s _ => ?_
  split
  · refine bind_ne_loop (sliceFrom_ne_loop _ _) fun b _ => ?_
    refine bind_ne_loop (uint32_ne_loop _ _) fun n _ => ?_
    refine bind_ne_loop (sliceFrom_ne_loop _ _) fun b _ => ?_
    split
    · simp
    · exact bind_ne_loop (sliceTo_ne_loop _ _ _) fun d _ => by simp
  · exact bind_ne_loop (sliceTo_ne_loop _ _ _) fun d _ => by simp

theorem parseSimple_ne_loop (E : Env) (hid b : Bytes) (t : UInt8) : parseSimple E hid t b ≠ .loop := by
  unfold parseSimple
  repeat' split
  · exact bind_ne_loop (uint64_ne_loop _ _) fun _ _ => by simp
  · refine bind_ne_loop (uint32_ne_loop _ _) fun n _ => ?_
    dsimp only
    split
    · simp
    · exact bind_ne_loop (slice_ne_loop _ _ _ _) fun _ _ => by simp
  · exact parseBinary_ne_loop _ _
  all_goals first
    | exact bind_ne_loop (uint64_ne_loop _ _) fun _ _ => by simp
    | exact bind_ne_loop (sliceTo_ne_loop _ _ _) fun _ _ => by simp
    | exact bind_ne_loop (at_ne_loop _ _) fun _ _ => by simp
    | exact bind_ne_loop (uint32_ne_loop _ _) fun _ _ => by simp
    | simp

theorem at_lt {b : Bytes} {i : Nat} {x : UInt8} (h : at_ b i = .ok x) : i < b.length := by
  unfold at_ at h
  split at h
  · rename_i hx
    exact (List.getElem?_eq_some_iff.mp hx).1
  · cases h

theorem idxOf_lt {b : Bytes} {k : Nat} (h : b.idxOf? 0 = some k) : k < b.length := by
  unfold List.idxOf? at h
  rw [List.findIdx?_eq_some_iff_getElem] at h
  exact h.1

theorem no_loop (E : Env) (hid : Bytes) : ∀ f : Nat,
    (∀ b ku kvs, 2 * b.length + 2 ≤ f → parseDoc E hid f b ku kvs ≠ .loop) ∧
    (∀ b docLen pi ku kvs, 2 * (b.length - pi) + 1 ≤ f → docLoop E hid f b docLen pi ku kvs ≠ .loop) ∧
    (∀ t b cur, 2 * b.length + 3 ≤ f → parseElem E hid f t b cur ≠ .loop) ∧
    (∀ b xs, 2 * b.length + 2 ≤ f → parseArr E hid f b xs ≠ .loop) ∧
    (∀ b docLen pi xs, 2 * (b.length - pi) + 1 ≤ f → arrLoop E hid f b docLen pi xs ≠ .loop) := by
  intro f
  induction f with
  | zero => refine ⟨?_, ?_, ?_, ?_, ?_⟩ <;> intros <;> omega
  | succ f ih =>
    obtain ⟨i1, i2, i3, i4, i5⟩ := ih
    refine ⟨?_, ?_, ?_, ?_, ?_⟩
    · intro b ku kvs hf
      rw [parseDoc]
      split
      · simp
      · refine bind_ne_loop (uint32_ne_loop _ _) fun n _ => ?_
        split
        · simp
        · exact bind_ne_loop (i2 _ _ _ _ _ (by omega)) fun _ _ => by simp
    · intro b docLen pi ku kvs hf
      rw [docLoop]
      split
      · refine bind_ne_loop (at_ne_loop _ _) fun t ht => ?_
        have hlt := at_lt ht
        dsimp only
        split
        · simp
        · rename_i k hk
          have hkl := idxOf_lt hk
          simp at hkl
          split
          · refine bind_ne_loop (i3 _ _ _ (by simp; omega)) fun r _ => ?_
            obtain ⟨n, v⟩ := r
            dsimp only
            split
            · simp
            · exact i2 _ _ _ _ _ (by omega)
          · refine bind_ne_loop (i3 _ _ _ (by simp; omega)) fun r _ => ?_
            obtain ⟨n, v⟩ := r
            dsimp only
            split
            · simp
            · exact i2 _ _ _ _ _ (by omega)
      · simp
    · intro t b cur hf
      rw [parseElem.eq_def]
      dsimp only
      split
      · split
        · exact i4 _ _ (by omega)
        · simp
      · split
        · split
          · exact i1 _ _ _ (by omega)
          · simp
        · exact parseSimple_ne_loop _ _ _ _
    · intro b xs hf
      rw [parseArr]
      refine bind_ne_loop (uint32_ne_loop _ _) fun n _ => ?_
      split
      · simp
      · exact bind_ne_loop (i5 _ _ _ _ (by omega)) fun _ _ => by simp
    · intro b docLen pi xs hf
      rw [arrLoop]
      split
      · refine bind_ne_loop (at_ne_loop _ _) fun t ht => ?_
        have hlt := at_lt ht
        dsimp only
        split
        · simp
        · rename_i k hk
          have hkl := idxOf_lt hk
          simp at hkl
          split
          · simp
          · split
            · refine bind_ne_loop (i3 _ _ _ (by simp; omega)) fun r _ => ?_
              obtain ⟨n, v⟩ := r
              dsimp only
              split
              · simp
              · exact i5 _ _ _ _ (by omega)
            · refine bind_ne_loop (i3 _ _ _ (by simp; omega)) fun r _ => ?_
              obtain ⟨n, v⟩ := r
              dsimp only
              split
              · simp
              · exact i5 _ _ _ _ (by omega)
      · simp

end Dxs.Bson
