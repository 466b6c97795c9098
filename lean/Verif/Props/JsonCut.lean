import Verif.Json.CutKey

/-! # C26, exactly: the inputs whose error cannot be printed -/

namespace Dxs.Json
open Spec

/-- **C26**, exactly, by the text of the input alone: it is rejected with an error that cannot be printed if and only if it ends inside a name, at any depth, after at least one byte of the name
(everything before being as the decoder accepts it, see C134). -/
theorem C26_texts (E : Env) (b : Bytes) : (∃ e, newValueFromJson E b = .err e ∧ errorString e = .panic) ↔ ∃ w t, Ws w ∧ b = w ++ t ∧ CutValue E t := newValue_mute E b

/-- So for every other rejected input the error can be printed. -/
theorem C26_printable (E : Env) (b : Bytes) (e : Err) (h : newValueFromJson E b = .err e) (hb : ¬ ∃ w t, Ws w ∧ b = w ++ t ∧ CutValue E t) : errorString e ≠ .panic :=
  fun hp => hb ((C26_texts E b).1 ⟨e, h, hp⟩)

/-- ` [1,{"a":true,"b`: the second name of an object in an array. -/
example : CutValue envEx [91, 49, 44, 123, 34, 97, 34, 58, 116, 114, 117, 101, 44, 34, 98] :=
  .arr _ (.later [] [49] [] _ _ (by simp [Ws]) (by simp [Ws]) (.num [49] 44 _ (by simp [NumLike, NumByte]) (by simp [NumByte]))
    (.inside [] _ (by simp [Ws]) (.obj _ (.later [] [97] [] [] [116, 114, 117, 101] [] [34, 98] .tru (by simp [Ws]) (by simp [Ws]) (by simp [Ws]) (by simp [Ws]) (by decide) (.tru _)
      (.name [] [98] (by simp [Ws]) (by decide) (by simp))))))
example : ∃ e, newValueFromJson envEx [32, 91, 49, 44, 123, 34, 97, 34, 58, 116, 114, 117, 101, 44, 34, 98] = .err e ∧ errorString e = .panic := ⟨_, rfl, by decide⟩
/-- `{"a":"b`: cut inside a text, not a name; the error can be printed. -/
example : ¬ ∃ w t, Ws w ∧ [123, 34, 97, 34, 58, 34, 98] = w ++ t ∧ CutValue envEx t := by
  rw [← C26_texts]
  rintro ⟨e, h, hp⟩
  have h' : newValueFromJson envEx [123, 34, 97, 34, 58, 34, 98] = .err (.json .noStrEnd 0 []) := by rfl
  rw [h'] at h
  cases h
  revert hp
  decide

end Dxs.Json
