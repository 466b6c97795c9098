import Verif.Heap.EqualAgain
import Verif.Heap.EqualKeep
import Verif.Props.Equal

/-!
# C120: asking `Equal` again
-/

namespace Dxs.Heap

/-- What one comparison leaves. -/
theorem Good.equal_left {E : Env} {h h' : Heap} {p q : Ptr} {v w : Val} {F G : List Ptr} (g : Good h (some p) v F) (g' : Good h (some q) w G) (hn : (F ++ G).Nodup) {f : Nat} {x : Bool}
    (e : equal E f h (some p) (some q) = .ok (x, h')) :
    eqVal E v w = .ok x ∧ Good h' (some p) (compared E v w).1 F ∧ Good h' (some q) (compared E v w).2 G := by
  have hl : ∀ r ∈ F ++ G, ¬Avail h r := by
    intro r hr
    rcases List.mem_append.1 hr with h | h
    · exact g.live r h
    · exact g'.live r h
  have ok := equal_spec E f h (some p) (some q) v w F G g.inv g.rep g'.rep hn hl
  rw [e] at ok
  have k := equal_kept E f _ _ _ _ _ e
  exact ⟨ok.1, ⟨ok.2.frame.inv, ok.2.left, g.nodup, fun r hr ha => g.live r hr ((k.avail r).1 ha)⟩, ⟨ok.2.frame.inv, ok.2.right, g'.nodup, fun r hr ha => g'.live r hr ((k.avail r).1 ha)⟩⟩

/-- C120: two values that are not Equal are not Equal when asked again; the second comparison finds the trees that the first one left and leaves them so, and from then on the
answer stays. Missing: Equal values may be found different the second time, see the counterexample. -/
theorem C120_repeat_partial (E : Env) (hr : ∀ s, E.equalFold s s = true) (h : Heap) (p q : Ptr) (v w : Val) (F G : List Ptr) (g : Good h (some p) v F) (g' : Good h (some q) w G) (ha : Separate h p q)
    (f1 f2 f3 : Nat) (x y z : Bool) (h1 h2 h3 : Heap) (e1 : equal E f1 h (some p) (some q) = .ok (x, h1)) (e2 : equal E f2 h1 (some p) (some q) = .ok (y, h2))
    (e3 : equal E f3 h2 (some p) (some q) = .ok (z, h3)) :
    (x = false → y = false) ∧ z = y ∧
    ∃ v' w', Rep h1.mem v' (some p) F ∧ Rep h1.mem w' (some q) G ∧ Rep h2.mem v' (some p) F ∧ Rep h2.mem w' (some q) G ∧ Rep h3.mem v' (some p) F ∧ Rep h3.mem w' (some q) G := by
  have hn := (g.apart g' ha).1
  obtain ⟨a1, l1, m1⟩ := g.equal_left g' hn e1
  obtain ⟨a2, l2, m2⟩ := l1.equal_left m1 hn e2
  rw [compared_again hr] at l2 m2
  obtain ⟨a3, l3, m3⟩ := l2.equal_left m2 hn e3
  rw [compared_again hr] at l3 m3
  refine ⟨?_, ?_, _, _, l1.rep, m1.rep, l2.rep, m2.rep, l3.rep, m3.rep⟩
  · rintro rfl
    cases y with
    | false => rfl
    | true => have := eqVal_again hr v w a2; rw [a1] at this; cases this
  · rw [a2] at a3; cases a3; rfl

/-- C120 for values in which nothing is to be unescaped: always the same answer. -/
theorem C120_settled_partial (E : Env) (h : Heap) (p q : Ptr) (v w : Val) (F G : List Ptr) (g : Good h (some p) v F) (g' : Good h (some q) w G) (ha : Separate h p q)
    (hv : settled v = true) (hw : settled w = true) (f1 f2 : Nat) (x y : Bool) (h1 h2 : Heap) (e1 : equal E f1 h (some p) (some q) = .ok (x, h1)) (e2 : equal E f2 h1 (some p) (some q) = .ok (y, h2)) :
    y = x := by
  have hn := (g.apart g' ha).1
  obtain ⟨a1, l1, m1⟩ := g.equal_left g' hn e1
  obtain ⟨a2, -, -⟩ := l1.equal_left m1 hn e2
  rw [compared_settled E v w hv hw, a1] at a2
  cases a2; rfl

/-- C120: `"a"` and the unparsed `A` are Equal, but not when asked again. -/
theorem C120_true_counterexample :
    (equal envEx 9 (twoStrings [97] [65]) (some 5) (some 6)).bind (fun x => (equal envEx 9 x.2 (some 5) (some 6)).bind (fun y => .ok (x.1, y.1))) = .ok (true, false) := by decide

/-- The law on `EqualFold` holds in the example. -/
example : ∀ s, envEx.equalFold s s = true := fun s => by simp [envEx]

/-- A value that is not Equal stays so: `"a"` and the unparsed `b`. -/
example : (equal envEx 9 (twoStrings [97] [98]) (some 5) (some 6)).bind (fun x => (equal envEx 9 x.2 (some 5) (some 6)).bind (fun y => .ok (x.1, y.1, (y.2.mem 6).dt))) = .ok (false, false, .string) := by decide

end Dxs.Heap
