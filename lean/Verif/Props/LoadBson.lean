import Verif.Load.BsonSim
import Verif.Props.Load
import Verif.Props.Bson

/-!
# C82, C83: the BSON loaders in memory
-/

namespace Dxs.Heap
open Bson (newValueFromBson)

/-! ## C83: with and without the cache -/

/-- Two calls have the same outcome: the same error, or values that are the same tree, bit for bit. -/
def EqualLoad : Out (Option Ptr) → Out (Option Ptr) → Prop
  | .ok a h, .ok b k => ∃ v F G, Rep h.mem v a F ∧ Rep k.mem v b G
  | .err e _, .err e' _ => e = e'
  | .panic, .panic => True
  | _, _ => False

theorem LoadsX.same {h k : Heap} {x : Res Val} {y z : Out (Option Ptr)} (hx : x ≠ .loop) (l : LoadsX h x y) (m : LoadsX k x z) : EqualLoad y z := by
  match x, y, z, l, m with
  | .ok v, .ok _ _, .ok _ _, ⟨F, mv⟩, ⟨G, mw⟩ => exact ⟨v, F, G, mv.good.rep, mw.good.rep⟩
  | .err _, .err _ _, .err _ _, ⟨e, _⟩, ⟨e', _⟩ => exact e.trans e'.symm
  | .panic, .panic, .panic, _, _ => trivial
  | .loop, .loop, .loop, _, _ => exact absurd rfl hx

/-- C83, for all bytes, all memories (whatever was created and freed before), any cache from the pool. -/
theorem C83_bson (E : Env) (hid : Bytes) (h k : Heap) (I : Inv h) (J : Inv k) (b : Bytes) (u u' : Bool) (pick pick' : Option Nat) :
    EqualLoad (newValueFromBsonH E hid h b u pick) (newValueFromBsonH E hid k b u' pick') :=
  LoadsX.same (Bson.C57_terminates E hid b) (newValueFromBsonH_spec E hid I b u pick) (newValueFromBsonH_spec E hid J b u' pick')

/-- The value in memory is the one the decoder describes, made of nodes that were not in use, and nothing in use is changed. -/
theorem C83_fresh (E : Env) (hid : Bytes) (h : Heap) (I : Inv h) (b : Bytes) (u : Bool) (pick : Option Nat) (v : Val) (hv : newValueFromBson E hid b = .ok v) :
    ∃ a h' F, newValueFromBsonH E hid h b u pick = .ok a h' ∧ Rep h'.mem v a F ∧ (∀ q ∈ F, Avail h q) ∧ Frame h [] h' := by
  have l := newValueFromBsonH_spec E hid I b u pick
  rw [hv] at l
  match hx : newValueFromBsonH E hid h b u pick, l with
  | .ok a h', ⟨F, m⟩ => exact ⟨a, h', F, rfl, m.good.rep, m.fresh, m.frame⟩

/-- `{"a":{"b":1.0},"c":[true]}` in recycled and in new memory. -/
def bsonDoc : Bytes :=
  [36, 0, 0, 0, 3, 97, 0, 16, 0, 0, 0, 1, 98, 0, 0, 0, 0, 0, 0, 0, 0xf0, 0x3f, 0, 4, 99, 0, 9, 0, 0, 0, 8, 48, 0, 1, 0, 0]

attribute [local irreducible] EqualLoad in
example : EqualLoad (newValueFromBsonH envEx [] usedHeap bsonDoc true (some 0)) (newValueFromBsonH envEx [] (Heap.init id) bsonDoc false none) :=
  C83_bson envEx [] usedHeap (Heap.init id) usedHeap_inv (inv_init id) bsonDoc true false (some 0) none

example : newValueFromBson envEx [] bsonDoc = .ok (.obj true [([97], .obj true [([98], .double 0x3ff0000000000000)]), ([99], .arr [.tru])]) := by decide

/-! ## C82: `LoadFromBson` -/

/-- C82 for objects, and for other values than arrays if the document has a member. -/
theorem C82_load_partial (E : Env) (hid : Bytes) (h : Heap) (O : Own h) (p : Ptr) (h5 : 5 ≤ p) (w : Val) (F : List Ptr) (g : Good h (some p) w F) (b : Bytes) (v : Val)
    (ho : newValueFromBson E hid b = .ok v) (ht : w.vt = .object ∨ w.vt ≠ .array ∧ v ≠ .obj false []) :
    ∃ h' F', loadBsonH E hid h p b = .ok () h' ∧ Rep h'.mem v (some p) F' := by
  have hn : w ≠ .nil := by
    rintro rfl
    have := g.rep.1
    cases this
  obtain ⟨h', F', e, g'⟩ := loadBsonH_spec E hid O h5 g ho (ht.imp (fun h => ⟨h, hn⟩) id)
  exact ⟨h', F', e, g'.rep⟩

/-- A document with the key "0" loaded into an array value gives an array. -/
theorem C82_array_counterexample :
    (loadBsonH envEx [] (oneValue .array) 5 [9, 0, 0, 0, 8, 48, 0, 1, 0]).see (fun _ h => ((h.mem 5).dt, (h.mem 5).arr.length)) = some (some (.array, 1)) ∧
    newValueFromBson envEx [] [9, 0, 0, 0, 8, 48, 0, 1, 0] = .ok (.obj true [([48], .tru)]) := by decide

/-- A document without a member loaded into an integer leaves an integer. -/
theorem C82_empty_counterexample :
    (loadBsonH envEx [] (oneValue .int) 5 [4, 0, 0, 0, 0]).see (fun _ h => (h.mem 5).dt) = some (some .int) ∧
    newValueFromBson envEx [] [4, 0, 0, 0, 0] = .ok (.obj false []) := by decide

/-- No bytes: `NewValueFromBson` fails, `LoadFromBson` does not. -/
theorem C82_no_bytes_counterexample :
    (loadBsonH envEx [] (oneValue .int) 5 []).see (fun _ h => (h.mem 5).dt) = some (some .int) ∧
    newValueFromBson envEx [] [] = .err .badBsonLen := by decide

/-- The hypotheses hold: `{"a":true}` is loaded into a value that was the integer 0. -/
example : ∃ h' F', loadBsonH envEx [] (oneValue .int) 5 [9, 0, 0, 0, 8, 97, 0, 1, 0] = .ok () h' ∧ Rep h'.mem (.obj true [([97], .tru)]) (some 5) F' := by
  have A := newValue_spec (inv_init id) .int rfl
  exact C82_load_partial envEx [] _ (oneValue_own _) 5 (by decide) (.int 0 0) [5] A.good _ _ (by decide) (Or.inr (by simp [Val.vt]))

end Dxs.Heap
