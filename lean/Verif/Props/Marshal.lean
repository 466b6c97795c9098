import Verif.Load.Marshal
import Verif.Load.Prog
import Verif.Props.Json
import Verif.Props.Load
import Verif.Props.After

/-!
# C108: `Unmarshal` gives back what `Marshal` was given
-/

namespace Dxs.Heap
open Json (newValueFromJson)
open Json.Spec (IntLaw EscLaw Reads)

/-- **C108**, for objects and arrays without binaries, NAN and INF (`Plain`, see C19), into a value of the same type. -/
theorem C108_roundtrip_partial (E : Env) (L : EscLaw E) (I : IntLaw E) (v : Val) (hp : Json.Spec.Plain E true true v) (hc : v.vt = .object ∨ v.vt = .array)
    (h : Heap) (O : Own h) (p : Ptr) (h5 : 5 ≤ p) (w : Val) (F : List Ptr) (g : Good h (some p) w F) (hw : w.vt = v.vt) :
    ∃ t h' v' F', marshal E v = .ok t ∧ unmarshal E h p t = .ok () h' ∧ Rep h'.mem v' (some p) F' ∧ Reads E v (canon v') := by
  obtain ⟨t, r, ht, hr, hR⟩ := Json.C19_roundtrip_partial E L I true true v hp (by
    cases v <;> simp_all [Val.vt, Json.Spec.Plain])
  have hT : TakesJ w r := by
    cases v <;> simp [Val.vt, Json.Spec.Plain] at hc hp
    · obtain ⟨ku', kvs', rfl, -⟩ := hR
      exact hw
    · obtain ⟨ys, rfl, -⟩ := hR
      exact hw
  obtain ⟨h', v', F', e, hv, hcan⟩ := C81_load_partial E h O p h5 w F g t r hr hT
  exact ⟨t, h', v', F', ht, e, hv, hcan ▸ hR⟩

/-- `{"a":["\"",7,null]}` into an empty object. -/
example : ∃ t h' v' F', marshal envEx (.obj true [([97], .arr [.str [34], .int 0 7, .null])]) = .ok t ∧ unmarshal envEx (oneValue .object) 5 t = .ok () h' ∧
    Rep h'.mem v' (some 5) F' ∧ Reads envEx (.obj true [([97], .arr [.str [34], .int 0 7, .null])]) (canon v') :=
  C108_roundtrip_partial envEx Json.escLaw_ex Json.intLaw_ex (.obj true [([97], .arr [.str [34], .int 0 7, .null])]) ⟨by decide, ⟨.inr rfl, .inr trivial, .inr trivial, trivial⟩, trivial⟩ (.inl rfl) _ (oneValue_own _) 5
    (by decide) (.obj false []) [5] (newValue_spec (inv_init id) .object rfl).good rfl

/-- **C108 is false** for a value that is not a container, given by value (`Unmarshal(data, *v)`): whatever the data is, the value is as it was. -/
theorem C108_leaf_counterexample (E : Env) (h : Heap) (O : Own h) (p : Ptr) (h5 : 5 ≤ p) (w : Val) (F : List Ptr) (g : Good h (some p) w F) (ho : (h.mem p).owner = none)
    (hl : leafOf (h.mem p) = some w) (data : Bytes) :
    (∀ h', unmarshalByValue E h p data = .ok () h' → h'.mem p = h.mem p) ∧ (∀ e h', unmarshalByValue E h p data = .err e h' → h'.mem p = h.mem p) := by
  obtain ⟨G, ha, hn, hq5, hm, -⟩ := new_spec g.inv (h.mem p) (fun c hc => by rw [ho] at hc; cases hc)
  have St := new_step (X := fun _ => False) g.inv (h.mem p) ho
  have hseen : ∀ q h', seen h p q h' = h' := by
    intro q h'
    unfold seen
    unfold leafOf at hl
    split <;> simp_all
  unfold unmarshalByValue
  generalize h.new (h.mem p) = r at *
  obtain ⟨q, h1⟩ := r
  dsimp only at *
  have hpa : ¬Avail h p := g.live p (rep_mem g.rep h5)
  have hpq : p ≠ q := by rintro rfl; exact hpa ha
  have hp1 : h1.mem p = h.mem p := G.mem p hpa
  have hpa1 : ¬Avail h1 p := fun x => hpa (G.avail p x)
  have g1 : Good h1 (some q) w [q] := by
    refine ⟨G.inv, ?_, by simp, ?_⟩
    · refine (rep_leaf (leafOf_isLeaf hl).1 _ _).2 ⟨q, rfl, by simp [foot, Nat.not_lt.2 hq5], ?_⟩
      rw [view_ge hq5, hm]; exact hl
    · intro x hx
      simp at hx
      rw [hx]; exact hn
  have O1 : Own h1 := St.own O
  have g2 := g1.clear O1 hq5
  have ho1 : (h1.mem q).owner = none := by rw [hm, ho]
  have hc2 : (Heap.clear h1 q).mem p = h.mem p := by
    rw [clear_upd ho1, ← hp1]
    simp [Heap.upd, Heap.set, hpq]
  have hpa2 : ¬Avail (Heap.clear h1 q) p := by
    rw [clear_upd ho1]
    exact hpa1
  have O2 : Own (Heap.clear h1 q) := by
    rw [clear_upd ho1]
    exact O1.set q _ (by rw [Node.clear_owner])
  have key : Fill ((Heap.clear h1 q).mem q).owner (Heap.clear h1 q) q [q] (loadJsonH E h1 q data) := by
    unfold loadJsonH
    exact Fill.ite (fun _ => Fill.same g2 _) (fun _ => Fill.unit (json2H_fill E _ g2 hq5 _) _)
  generalize loadJsonH E h1 q data = y at key ⊢
  have hnq : p ∉ [q] := by simpa using hpq
  constructor
  · intro h' e
    cases y with
    | ok a h2 =>
      dsimp only at e
      cases e
      obtain ⟨v', R', u, -⟩ := key
      rw [hseen, u.frame.mem p h5 hnq hpa2, hc2]
    | err => cases e
    | panic => cases e
    | loop => cases e
  · intro x h' e
    cases y with
    | ok => cases e
    | err a h2 =>
      dsimp only at e
      cases e
      obtain ⟨h3, v', R', u, -, f⟩ := key O2
      rw [hseen, f.mem h5 (fun x => hpa2 (u.frame.avail p x)), u.frame.mem p h5 hnq hpa2, hc2]
    | panic => cases e
    | loop => cases e

/-- **C108 is false** for an object given by value, and does harm: blank data is a success, and all members are left with the name "" and nil. -/
theorem C108_object_counterexample (E : Env) (h : Heap) (p : Ptr) (hd : (h.mem p).dt = .object) (ho : (h.mem p).owner = none) (hp : p < h.next) (data : Bytes) (hb : (Json.skipWB data).1 = []) :
    ∃ h', unmarshalByValue E h p data = .ok () h' ∧ (h'.mem p).dt = .object ∧ (h'.mem p).kvs = List.replicate (h.mem p).kvs.length ([], none) := by
  refine ⟨seen h p (h.new (h.mem p)).1 (Heap.clear (h.new (h.mem p)).2 (h.new (h.mem p)).1), ?_, ?_⟩
  · unfold unmarshalByValue loadJsonH
    simp only [hb, List.length_nil, if_true]
  · have hq : p ≠ h.next := by omega
    simp [seen, hd, Heap.new, Heap.clear, Heap.upd, Heap.set, hq, ho, slots, Node.clear]

/-- An Int value: `Unmarshal` of `7 ` by value. -/
example : (unmarshalByValue envEx (oneValue .int) 5 [55, 32]).see (fun _ h => (h.mem 5).cell) = some (some 0) ∧
    (unmarshal envEx (oneValue .int) 5 [55, 32]).see (fun _ h => (h.mem 5).cell) = some (some 7) := by decide

/-- An object with a member. -/
def oneMember : Heap :=
  match setKey envEx (oneValue .object) 5 [97] .int with
  | .ok (_, h) => h
  | _ => oneValue .object

example : (oneMember.mem 5).kvs = [([97], some 6)] ∧ (unmarshalByValue envEx oneMember 5 [32]).see (fun _ h => (h.mem 5).kvs) = some (some [([], none)]) := by decide

/-- The first member of the document appears in the original object, the others do not. -/
example : (unmarshalByValue envEx oneMember 5 [123, 34, 98, 34, 58, 49, 44, 34, 99, 34, 58, 50, 125]).see (fun _ h => ((h.mem 5).kvs.map Prod.fst)) = some (some [[98]]) := by decide

end Dxs.Heap
