import Verif.MsgPack.Robust

/-! Helper lemmas for the round trip. -/

namespace Dxs.MsgPack
open Spec

theorem lo32_setWidth (x : F32) : lo32 (x.setWidth 64) = x := by
  unfold lo32
  apply BitVec.eq_of_toNat_eq
  simp

theorem sameM_keys (E : Env) : ∀ (xs ys : List (Bytes × Val)), SameM E xs ys →
    ys.map Prod.fst = xs.map Prod.fst
  | [], ys, h => by have h : ys = [] := h; subst h; rfl
  | (k, v) :: vs, ys, h => by
    obtain ⟨w, ws, rfl, _, h2⟩ := h
    simp [sameM_keys E vs ws h2]

mutual
theorem same_of_denotes (E : Env) : ∀ (v w : Val), Supported v → DistinctKeys E v → Denotes E (data E v) w → Same E v w
  | .nil, w, _, hk, h => h
  | .null, w, _, hk, h => h
  | .tru, w, _, hk, h => by simpa [data, Denotes, Same] using h
  | .fls, w, _, hk, h => by simpa [data, Denotes, Same] using h
  | .int _ c, w, _, hk, h => by
    obtain ⟨c', rfl, hc⟩ := h
    have : c' = c := BitVec.eq_of_toInt_eq hc
    subst this; rfl
  | .float c, w, _, hk, h => ⟨_, h, lo32_setWidth _⟩
  | .double c, w, _, hk, h => h
  | .dateTime c, w, _, hk, h => by
    have h : w = _ := h
    simp only [BitVec.ofInt_toInt] at h
    exact h
  | .str s, w, _, hk, h => h
  | .raw s, w, _, hk, h => h
  | .bin _ b, w, _, hk, h => h
  | .exbin _ b, w, hs, hk, h => by
    obtain ⟨t, p, rfl, _⟩ := hs
    exact h
  | .arr xs, w, hs, hk, h => by
    obtain ⟨vs, rfl, hv⟩ := h
    exact ⟨vs, rfl, sameL_of_denotes E xs vs hs.2 hk hv⟩
  | .obj _ kvs, w, hs, hk, h => by
    obtain ⟨ku, vs, rfl, _, hv⟩ := h
    have hs := sameM_of_denotes E kvs vs hs.2 hk.2 hv
    refine ⟨ku, vs, ?_, hs⟩
    rw [Assoc.lastWins_distinct]
    unfold Assoc.Distinct
    rw [sameM_keys E kvs vs hs]
    exact hk.1
  | .nan, _, hs, _, _ => hs
  | .inf, _, hs, _, _ => hs
theorem sameL_of_denotes (E : Env) : ∀ (xs ys : List Val), SupportedL xs → DistinctKeysL E xs → DenotesL E (dataL E xs) ys →
    SameL E xs ys
  | [], ys, _, _, h => h
  | v :: vs, ys, hs, hk, h => by
    obtain ⟨w, ws, rfl, h1, h2⟩ := h
    exact ⟨w, ws, rfl, same_of_denotes E v w hs.1 hk.1 h1, sameL_of_denotes E vs ws hs.2 hk.2 h2⟩
theorem sameM_of_denotes (E : Env) : ∀ (xs ys : List (Bytes × Val)), SupportedM xs →
    DistinctKeysM E xs → DenotesM E (dataM E xs) ys → SameM E xs ys
  | [], ys, _, _, h => h
  | (k, v) :: vs, ys, hs, hk, h => by
    obtain ⟨w, ws, rfl, h1, h2⟩ := h
    exact ⟨w, ws, rfl, same_of_denotes E v w hs.2.1 hk.1 h1, sameM_of_denotes E vs ws hs.2.2 hk.2 h2⟩
end

mutual
theorem fits_data (E : Env) : ∀ v : Val, Fits (data E v)
  | .int _ c => by
    refine ⟨?_, ?_⟩
    · have := BitVec.le_toInt c; simpa using this
    · have := BitVec.toInt_lt (x := c); simpa using this
  | .arr xs => fitsL_data E xs
  | .obj _ kvs => fitsM_data E kvs
  | .nil | .null | .tru | .fls | .float _ | .double _ | .dateTime _ | .str _
  | .raw _ | .bin _ _ | .exbin _ _ | .nan | .inf => trivial
theorem fitsL_data (E : Env) : ∀ xs : List Val, FitsL (dataL E xs)
  | [] => trivial
  | v :: vs => ⟨fits_data E v, fitsL_data E vs⟩
theorem fitsM_data (E : Env) : ∀ xs : List (Bytes × Val), FitsM (dataM E xs)
  | [] => trivial
  | (_, v) :: vs => ⟨fits_data E v, fitsM_data E vs⟩
end

end Dxs.MsgPack
