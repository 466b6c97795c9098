import Verif.Heap.Equal

/-!
# Comparing again what has been compared

`Equal` (dxvalue.go:478-529) unescapes names and strings while it compares (`compared`). What it finds when it is asked again.
-/

namespace Dxs.Heap

theorem keyOf_true (E : Env) (k : Bytes) : keyOf E true k = k := rfl

theorem unescKeys_len {α : Type} (E : Env) (ku : Bool) (xs : List (Bytes × α)) : (unescKeys E ku xs).length = xs.length := by
  cases ku <;> simp [unescKeys]

theorem comparedM_len (E : Env) (ku ku' : Bool) : ∀ xs ys, (comparedM E ku ku' xs ys).1.length = xs.length ∧ (comparedM E ku ku' xs ys).2.length = ys.length
  | [], _ => ⟨rfl, rfl⟩
  | _ :: _, [] => ⟨rfl, rfl⟩
  | (k, v) :: xs, (k', w) :: ys => by
    obtain ⟨h1, h2⟩ := comparedM_len E ku ku' xs ys
    simp only [comparedM]
    split
    · exact ⟨rfl, rfl⟩
    · split
      · simp [h1, h2]
      · simp

mutual
/-- What is Equal when asked again was Equal. -/
theorem eqVal_again {E : Env} (hr : ∀ s, E.equalFold s s = true) : ∀ v w, eqVal E (compared E v w).1 (compared E v w).2 = .ok true → eqVal E v w = .ok true
  | .obj ku kvs, w => by
    cases w with
    | obj ku' kvs' =>
      simp only [compared]
      split
      · exact id
      · rename_i hl
        have hl' : kvs.length = kvs'.length := by simpa using hl
        simp only [eqVal, unescKeys_len, (comparedM_len E ku ku' kvs kvs').1, (comparedM_len E ku ku' kvs kvs').2, if_neg hl]
        rw [eqValM_unesc]
        exact eqValM_again hr ku ku' kvs kvs'
    | _ => exact id
  | .arr xs, w => by
    cases w with
    | arr ys =>
      simp only [compared, eqVal]
      exact eqValL_again hr xs ys
    | _ => exact id
  | .str a, w => by
    cases w with
    | raw b =>
      simp only [compared, eqVal]
      intro h
      have : a = E.unesc b := by simpa using h
      rw [this, hr]
    | _ => exact id
  | .raw a, w => by
    cases w with
    | str b =>
      simp only [compared, eqVal]
      intro h
      have : E.unesc a = b := by simpa using h
      rw [this, hr]
    | _ => exact id
  | .nil, _ | .int _ _, _ | .float _, _ | .double _, _ | .dateTime _, _ | .bin _ _, _ | .exbin _ _, _ | .null, _ | .tru, _ | .fls, _ | .nan, _ | .inf, _ => id
theorem eqValM_again {E : Env} (hr : ∀ s, E.equalFold s s = true) (ku ku' : Bool) : ∀ kvs kvs',
    eqValM E ku ku' (comparedM E ku ku' kvs kvs').1 (comparedM E ku ku' kvs kvs').2 = .ok true → eqValM E ku ku' kvs kvs' = .ok true
  | [], _ => fun _ => rfl
  | _ :: _, [] => fun _ => rfl
  | (k, v) :: xs, (k', w) :: ys => by
    have ih := eqVal_again hr v w
    have ih' := eqValM_again hr ku ku' xs ys
    simp only [comparedM]
    by_cases hk : keyOf E ku k ≠ keyOf E ku' k'
    · rw [if_pos hk]; exact id
    · rw [if_neg hk]
      by_cases he : eqVal E v w = .ok true
      · rw [if_pos he]
        simp only [eqValM, if_neg hk, he]
        intro h
        refine ih' ?_
        generalize eqVal E (compared E v w).1 (compared E v w).2 = r at h
        cases r with
        | ok b => cases b <;> simp_all
        | _ => simp at h
      · rw [if_neg he]
        simp only [eqValM, if_neg hk]
        intro h
        exfalso
        refine he (ih ?_)
        generalize eqVal E (compared E v w).1 (compared E v w).2 = r at h
        cases r with
        | ok b => cases b <;> simp_all
        | _ => simp at h
theorem eqValL_again {E : Env} (hr : ∀ s, E.equalFold s s = true) : ∀ xs ys,
    eqValL E (comparedL E xs ys).1 (comparedL E xs ys).2 = .ok true → eqValL E xs ys = .ok true
  | [], _ => fun _ => rfl
  | _ :: _, [] => fun h => h
  | v :: xs, w :: ys => by
    have ih := eqVal_again hr v w
    have ih' := eqValL_again hr xs ys
    simp only [comparedL]
    by_cases he : eqVal E v w = .ok true
    · rw [if_pos he]
      simp only [eqValL, he]
      intro h
      refine ih' ?_
      generalize eqVal E (compared E v w).1 (compared E v w).2 = r at h
      cases r with
      | ok b => cases b <;> simp_all
      | _ => simp at h
    · rw [if_neg he]
      simp only [eqValL]
      intro h
      exfalso
      refine he (ih ?_)
      generalize eqVal E (compared E v w).1 (compared E v w).2 = r at h
      cases r with
      | ok b => cases b <;> simp_all
      | _ => simp at h
end

mutual
/-- Comparing again changes nothing. -/
theorem compared_again {E : Env} (hr : ∀ s, E.equalFold s s = true) : ∀ v w, compared E (compared E v w).1 (compared E v w).2 = compared E v w
  | .obj ku kvs, w => by
    cases w with
    | obj ku' kvs' =>
      simp only [compared]
      split
      · rename_i hl; simp only [compared, if_pos hl]
      · rename_i hl
        simp only [compared, unescKeys_len, (comparedM_len E ku ku' kvs kvs').1, (comparedM_len E ku ku' kvs kvs').2, if_neg hl]
        rw [comparedM_unesc, comparedM_again hr ku ku' kvs kvs']
        rfl
    | _ => rfl
  | .arr xs, w => by
    cases w with
    | arr ys => simp only [compared]; rw [comparedL_again hr xs ys]
    | _ => rfl
  | .str a, w => by cases w <;> rfl
  | .raw a, w => by cases w <;> rfl
  | .nil, _ | .int _ _, _ | .float _, _ | .double _, _ | .dateTime _, _ | .bin _ _, _ | .exbin _ _, _ | .null, _ | .tru, _ | .fls, _ | .nan, _ | .inf, _ => rfl
theorem comparedM_again {E : Env} (hr : ∀ s, E.equalFold s s = true) (ku ku' : Bool) : ∀ kvs kvs',
    comparedM E ku ku' (comparedM E ku ku' kvs kvs').1 (comparedM E ku ku' kvs kvs').2 = comparedM E ku ku' kvs kvs'
  | [], _ => rfl
  | _ :: _, [] => rfl
  | (k, v) :: xs, (k', w) :: ys => by
    have ih := compared_again hr v w
    have ih' := comparedM_again hr ku ku' xs ys
    simp only [comparedM]
    by_cases hk : keyOf E ku k ≠ keyOf E ku' k'
    · rw [if_pos hk]; simp only [comparedM, if_pos hk]
    · rw [if_neg hk]
      by_cases he : eqVal E v w = .ok true
      · rw [if_pos he]
        simp only [comparedM, if_neg hk, ih, ih', ite_self]
      · rw [if_neg he]
        simp only [comparedM, if_neg hk, ih, if_neg (fun h => he (eqVal_again hr v w h))]
theorem comparedL_again {E : Env} (hr : ∀ s, E.equalFold s s = true) : ∀ xs ys,
    comparedL E (comparedL E xs ys).1 (comparedL E xs ys).2 = comparedL E xs ys
  | [], _ => rfl
  | _ :: _, [] => rfl
  | v :: xs, w :: ys => by
    have ih := compared_again hr v w
    have ih' := comparedL_again hr xs ys
    simp only [comparedL]
    by_cases he : eqVal E v w = .ok true
    · rw [if_pos he]
      simp only [comparedL, ih, ih', ite_self]
    · rw [if_neg he]
      simp only [comparedL, ih, if_neg (fun h => he (eqVal_again hr v w h))]
end

end Dxs.Heap
