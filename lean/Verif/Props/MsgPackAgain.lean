import Verif.Props.Again
import Verif.Props.MsgPackBack

/-! # C133 for MessagePack, exactly up to the extensions of C09 -/

namespace Dxs.MsgPack
open Spec
variable {E : Env}

/-- An extension value of those lengths and types that are written as they should be (C09). -/
def ExtOk : Val → Prop
  | .exbin _ b => b.head? ≠ some 0xff ∧ fixextLen (b.length - 1) = false
  | _ => True

mutual
theorem ext_supported : ∀ v, Given E v → Leaves ExtOk v → Supported v
  | .nil, _, _ | .null, _, _ | .tru, _, _ | .fls, _, _ | .double _, _, _ | .dateTime _, _, _ | .int _ _, _, _ | .float _, _, _ => trivial
  | .str s, g, _ => g
  | .bin _ _, g, _ => g.2
  | .exbin _ _, g, k => by
    obtain ⟨_, t, p, rfl, hp⟩ := g
    obtain ⟨k1, k2⟩ := k
    exact ⟨t, p, rfl, by simpa using k1, hp, by simpa using k2⟩
  | .arr xs, g, k => ⟨g.1, ext_supportedL xs g.2 k⟩
  | .obj ku kvs, g, k => ⟨g.2.1, ext_supportedM kvs g.2.2.2 k⟩
  | .raw _, g, _ | .nan, g, _ | .inf, g, _ => g.elim
theorem ext_supportedL : ∀ vs, GivenL E vs → LeavesL ExtOk vs → SupportedL vs
  | [], _, _ => trivial
  | v :: vs, g, k => ⟨ext_supported v g.1 k.1, ext_supportedL vs g.2 k.2⟩
theorem ext_supportedM : ∀ kvs, GivenM E kvs → LeavesM ExtOk kvs → SupportedM kvs
  | [], _, _ => trivial
  | (_, v) :: vs, g, k => ⟨g.1.1, ext_supported v g.1.2 k.1, ext_supportedM vs g.2 k.2⟩
end

mutual
theorem stays_kept : ∀ v, Stays E v → Leaves ExtOk v → Leaves (Kept E) v
  | .arr xs, h, k => stays_keptL xs h k
  | .obj _ kvs, h, k => stays_keptM kvs h.2.2 k
  | .exbin _ _, _, k => k
  | .dateTime _, h, _ => h
  | .null, _, _ | .tru, _, _ | .fls, _, _ | .double _, _, _ | .int _ _, _, _ | .float _, _, _ | .str _, _, _ | .bin _ _, _, _ => trivial
  | .nil, h, _ | .raw _, h, _ | .nan, h, _ | .inf, h, _ => h.elim
theorem stays_keptL : ∀ vs, StaysL E vs → LeavesL ExtOk vs → LeavesL (Kept E) vs
  | [], _, _ => trivial
  | v :: vs, h, k => ⟨stays_kept v h.1 k.1, stays_keptL vs h.2 k.2⟩
theorem stays_keptM : ∀ kvs, StaysM E kvs → LeavesM ExtOk kvs → LeavesM (Kept E) kvs
  | [], _, _ => trivial
  | (_, v) :: vs, h, k => ⟨stays_kept v h.1 k.1, stays_keptM vs h.2 k.2⟩
end

/-- **C133** for MessagePack: of the values that NewValueFromMsgPack gives, if their extensions are those of C09, exactly those are written and read again as they were that have no nil in them (which the unused byte 0xc1 makes) and only times that survive seconds and nanoseconds. -/
theorem C133_msgpack_exact (E : Env) (b : Bytes) (v : Val) (h : newValueFromMsgPack E b = .ok v) (hx : Leaves ExtOk v) : newValueFromMsgPack E (value2MsgPack E v) = .ok v ↔ Leaves (Kept E) v := by
  have g : Given E v := by
    unfold newValueFromMsgPack parse at h
    replace h := Res.bind_eq_ok.1 h
    obtain ⟨⟨n, o⟩, e, h⟩ := h
    cases h
    exact given E _ _ _ _ e
  constructor
  · intro e
    have := (C138_iff E v [] (ext_supported v g hx)).1 (by rw [List.append_nil]; exact e)
    exact stays_kept v this hx
  · exact C133_msgpack_partial E b v h

example : Leaves ExtOk (.arr [.nil, .exbin 0 [5, 1, 2, 3]]) ∧ ¬ Leaves (Kept envEx) (.arr [.nil, .exbin 0 [5, 1, 2, 3]]) := by
  refine ⟨⟨trivial, ⟨by simp, rfl⟩, trivial⟩, ?_⟩
  simp [Leaves, LeavesL, Kept]

end Dxs.MsgPack
