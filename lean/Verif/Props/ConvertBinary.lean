import Verif.Props.Convert
import Verif.Props.MsgPackBack
import Verif.Props.BsonReadingAll

/-! # C107 for the two binary formats, exactly

Which objects stay as they are through any conversions between MessagePack and BSON. -/

namespace Dxs.Convert

/-- MessagePack or BSON. -/
def Binary : Format → Prop
  | .msgPack | .bson _ => True
  | _ => False

theorem through_msgPack (E : Env) (v : Val) (h : MsgPack.Supported v) : through E .msgPack v = .ok v ↔ MsgPack.Spec.Stays E v := by
  have := MsgPack.C138_iff E v [] h
  rwa [List.append_nil] at this

theorem through_bson (E : Env) (hE : Bson.IndexLaw E) (hid : Bytes) (ku : Bool) (kvs : List (Bytes × Val)) (h : Bson.WritableM kvs) (hw : Bson.Spec.WF (Bson.data E (.obj ku kvs)))
    (hn : Bson.Spec.NoOld (Bson.data E (.obj ku kvs))) : through E (.bson hid) (.obj ku kvs) = .ok (.obj ku kvs) ↔ Bson.Spec.Solid (Bson.data E (.obj ku kvs)) ∧ Bson.Spec.Fixed E (.obj ku kvs) := by
  rw [← Bson.C15_exact E hE hid [] ku kvs h hw hn]
  constructor
  · intro e
    change (Bson.value2Bson E (.obj ku kvs) [] >>= Bson.newValueFromBson E hid) = _ at e
    replace e := Res.bind_eq_ok.1 e
    obtain ⟨bs, h1, h2⟩ := e
    exact ⟨bs, h1, by rw [List.append_nil]; exact h2⟩
  · rintro ⟨bs, h1, h2⟩
    rw [List.append_nil] at h2
    change (Bson.value2Bson E (.obj ku kvs) [] >>= Bson.newValueFromBson E hid) = _
    rw [h1]
    exact h2

/-- **C107** for MessagePack and BSON: an object that both can carry stays as it is through every chain of conversions between the two if and only if each of them brings it back as it was, that is, if it is one of `Stays`, `Solid` and `Fixed`. -/
theorem C107_binary_exact (E : Env) (hE : Bson.IndexLaw E) (ku : Bool) (kvs : List (Bytes × Val)) (hm : MsgPack.Supported (.obj ku kvs)) (h : Bson.WritableM kvs) (hw : Bson.Spec.WF (Bson.data E (.obj ku kvs)))
    (hn : Bson.Spec.NoOld (Bson.data E (.obj ku kvs))) :
    (∀ fs : List Format, (∀ f ∈ fs, Binary f) → chain E fs (.obj ku kvs) = .ok (.obj ku kvs)) ↔
      MsgPack.Spec.Stays E (.obj ku kvs) ∧ Bson.Spec.Solid (Bson.data E (.obj ku kvs)) ∧ Bson.Spec.Fixed E (.obj ku kvs) := by
  have one : ∀ f, chain E [f] (.obj ku kvs) = through E f (.obj ku kvs) := by
    intro f
    unfold chain
    cases through E f (.obj ku kvs) <;> rfl
  constructor
  · intro hc
    refine ⟨(through_msgPack E _ hm).1 ?_, (through_bson E hE [] ku kvs h hw hn).1 ?_⟩
    · rw [← one]; exact hc _ (by simp [Binary])
    · rw [← one]; exact hc _ (by simp [Binary])
  · rintro ⟨hs, hb⟩ fs
    induction fs with
    | nil => intro _; rfl
    | cons f fs ih =>
      intro hf
      have hfs := ih (fun g hg => hf g (List.mem_cons_of_mem _ hg))
      have : through E f (.obj ku kvs) = .ok (.obj ku kvs) := by
        have hf := hf f (by simp)
        cases f with
        | msgPack => exact (through_msgPack E _ hm).2 hs
        | bson hid => exact (through_bson E hE hid ku kvs h hw hn).2 hb
        | json _ _ | jsonFormat _ _ => exact hf.elim
      rw [chain, this]
      exact hfs

/-- `{"a": [1.5, "x"], "b": -4294967296}` stays as it is; with an ObjectID in it does not, because MessagePack has no type number for it. -/
example : MsgPack.Spec.Stays envEx (.obj true [([97], .arr [.double 0x3ff8000000000000, .str [120]]), ([98], .int 0 (-4294967296))]) ∧
    Bson.Spec.Fixed envEx (.obj true [([97], .arr [.double 0x3ff8000000000000, .str [120]]), ([98], .int 0 (-4294967296))]) ∧
    Bson.Spec.Solid (Bson.data envEx (.obj true [([97], .arr [.double 0x3ff8000000000000, .str [120]]), ([98], .int 0 (-4294967296))])) := by
  refine ⟨⟨rfl, by simp [Assoc.Distinct]; decide, ⟨trivial, trivial, trivial⟩, rfl, trivial⟩, ⟨rfl, by simp [Assoc.Distinct]; decide, ⟨trivial, trivial, trivial⟩, .inr ⟨rfl, by decide⟩, trivial⟩, ?_⟩
  exact ⟨by simp [Bson.dataM], ⟨by simp [Bson.dataL], trivial, trivial, trivial⟩, trivial, trivial⟩
example : ¬ MsgPack.Spec.Stays envEx (.obj true [([97], .bin 7 [1, 2, 3, 4, 5, 6, 7, 8, 9, 10, 11, 12])]) := by simp [MsgPack.Spec.Stays, MsgPack.Spec.StaysM]

end Dxs.Convert
