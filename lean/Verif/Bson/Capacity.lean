import Verif.Bson.Robust

/-! The bytes between length and capacity of the input matter only where a right-sized buffer would panic. -/

namespace Dxs.Bson

/-- `s` agrees with `r` unless `r` is a panic. -/
def Upto {α : Type} (r s : Res α) : Prop := r = .panic ∨ s = r

theorem Upto.rfl' {α : Type} (r : Res α) : Upto r r := Or.inr rfl

theorem Upto.bind {α β : Type} {r s : Res α} {g h : α → Res β} (h1 : Upto r s) (h2 : ∀ a, Upto (g a) (h a)) :
    Upto (r >>= g) (s >>= h) := by
  rcases h1 with rfl | rfl
  · exact Or.inl rfl
  · cases s with
    | ok a => exact h2 a
    | err e => exact Or.inr rfl
    | panic => exact Or.inr rfl
    | loop => exact Or.inr rfl

theorem sliceTo_upto (hid b : Bytes) (n : Nat) : Upto (sliceTo [] n b) (sliceTo hid n b) := by
  unfold sliceTo
  split
  · rename_i h
    right
    rw [if_pos (by simp at h ⊢; omega)]
    simp at h ⊢
    rw [List.take_append_of_le_length h]
  · exact Or.inl rfl

theorem slice_upto (hid b : Bytes) (n m : Nat) : Upto (slice [] n m b) (slice hid n m b) := by
  unfold slice
  split
  · rename_i h
    right
    rw [if_pos (by simp at h ⊢; omega)]
    simp at h ⊢
    rw [List.take_append_of_le_length h.2]
  · exact Or.inl rfl

theorem uint32_upto (hid b : Bytes) : Upto (uint32 [] b) (uint32 hid b) :=
  (sliceTo_upto hid b 4).bind fun _ => .rfl' _
theorem uint64_upto (hid b : Bytes) : Upto (uint64 [] b) (uint64 hid b) :=
  (sliceTo_upto hid b 8).bind fun _ => .rfl' _

theorem parseBinary_upto (hid b : Bytes) : Upto (parseBinary [] b) (parseBinary hid b) := by
  refine (uint32_upto hid b).bind fun n => (Upto.rfl' _).bind fun b => (Upto.rfl' _).bind fun t => ?_
  split
  · refine (Upto.rfl' _).bind fun b => (uint32_upto hid b).bind fun n => (Upto.rfl' _).bind fun b => ?_
    split
    · exact .rfl' _
    · exact (sliceTo_upto hid _ _).bind fun _ => .rfl' _
  · exact (sliceTo_upto hid _ _).bind fun _ => .rfl' _

theorem Upto.ite {α : Type} {c : Prop} [Decidable c] {r s r' s' : Res α} (h1 : Upto r s) (h2 : Upto r' s') :
    Upto (if c then r else r') (if c then s else s') := by
  by_cases h : c
  · rwa [if_pos h, if_pos h]
  · rwa [if_neg h, if_neg h]

theorem parseSimple_upto (E : Env) (hid b : Bytes) (t : UInt8) :
    Upto (parseSimple E [] t b) (parseSimple E hid t b) := by
  unfold parseSimple
  refine Upto.ite ((uint64_upto hid b).bind fun _ => .rfl' _) (Upto.ite ?_ (Upto.ite (parseBinary_upto hid b)
    (Upto.ite ((sliceTo_upto hid _ _).bind fun _ => .rfl' _) (Upto.ite (.rfl' _)
    (Upto.ite ((uint64_upto hid b).bind fun _ => .rfl' _) (Upto.ite ((uint32_upto hid b).bind fun _ => .rfl' _)
    (Upto.ite ((uint64_upto hid b).bind fun _ => .rfl' _) (Upto.ite ((uint64_upto hid b).bind fun _ => .rfl' _)
    (Upto.ite ((sliceTo_upto hid _ _).bind fun _ => .rfl' _) (.rfl' _))))))))))
  refine (uint32_upto hid b).bind fun n => ?_
  dsimp only
  split
  · exact .rfl' _
  · exact (slice_upto hid _ _ _).bind fun _ => .rfl' _

theorem parse_upto (E : Env) (hid : Bytes) : ∀ f : Nat,
    (∀ b ku kvs, Upto (parseDoc E [] f b ku kvs) (parseDoc E hid f b ku kvs)) ∧
    (∀ b docLen pi ku kvs, Upto (docLoop E [] f b docLen pi ku kvs) (docLoop E hid f b docLen pi ku kvs)) ∧
    (∀ t b cur, Upto (parseElem E [] f t b cur) (parseElem E hid f t b cur)) ∧
    (∀ b xs, Upto (parseArr E [] f b xs) (parseArr E hid f b xs)) ∧
    (∀ b docLen pi xs, Upto (arrLoop E [] f b docLen pi xs) (arrLoop E hid f b docLen pi xs)) := by
  intro f
  induction f with
  | zero => refine ⟨?_, ?_, ?_, ?_, ?_⟩ <;> intros <;> exact .rfl' _
  | succ f ih =>
    obtain ⟨i1, i2, i3, i4, i5⟩ := ih
    refine ⟨?_, ?_, ?_, ?_, ?_⟩
    · intro b ku kvs
      rw [parseDoc, parseDoc]
      split
      · exact .rfl' _
      · refine (uint32_upto hid b).bind fun n => ?_
        split
        · exact .rfl' _
        · exact (i2 _ _ _ _ _).bind fun _ => .rfl' _
    · intro b docLen pi ku kvs
      rw [docLoop, docLoop]
      split
      · refine (Upto.rfl' _).bind fun t => ?_
        dsimp only
        split
        · exact .rfl' _
        · split
          · refine (i3 _ _ _).bind fun r => ?_
            obtain ⟨n, v⟩ := r
            dsimp only
            split
            · exact .rfl' _
            · exact i2 _ _ _ _ _
          · refine (i3 _ _ _).bind fun r => ?_
            obtain ⟨n, v⟩ := r
            dsimp only
            split
            · exact .rfl' _
            · exact i2 _ _ _ _ _
      · exact .rfl' _
    · intro t b cur
      rw [parseElem.eq_def, parseElem.eq_def]
      dsimp only
      split
      · split
        · exact i4 _ _
        · exact .rfl' _
      · split
        · split
          · exact i1 _ _ _
          · exact .rfl' _
        · exact parseSimple_upto E hid b t
    · intro b xs
      rw [parseArr, parseArr]
      refine (uint32_upto hid b).bind fun n => ?_
      split
      · exact .rfl' _
      · exact (i5 _ _ _ _).bind fun _ => .rfl' _
    · intro b docLen pi xs
      rw [arrLoop, arrLoop]
      split
      · refine (Upto.rfl' _).bind fun t => ?_
        dsimp only
        split
        · exact .rfl' _
        · split
          · exact .rfl' _
          · split
            · refine (i3 _ _ _).bind fun r => ?_
              obtain ⟨n, v⟩ := r
              dsimp only
              split
              · exact .rfl' _
              · exact i5 _ _ _ _
            · refine (i3 _ _ _).bind fun r => ?_
              obtain ⟨n, v⟩ := r
              dsimp only
              split
              · exact .rfl' _
              · exact i5 _ _ _ _
      · exact .rfl' _

end Dxs.Bson
