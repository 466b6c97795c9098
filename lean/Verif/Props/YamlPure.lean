import Verif.Yaml.PureRun
import Verif.Yaml.PureLoad
import Verif.Heap.Example
import Verif.EnvEx

/-!
# C125, C126: what a YAML text means does not depend on the memory; `LoadFromYaml` and `NewValueFromYaml`
-/

namespace Dxs.Yaml

open Dxs.Heap

/-! ## C125 -/

/-- Both results are nil, or both are the same tree. -/
def SameTree (h1 : Heap) (a1 : Option Ptr) (h2 : Heap) (a2 : Option Ptr) : Prop :=
  (a1 = none ∧ a2 = none) ∨ ∃ q1 q2 v F1 F2, a1 = some q1 ∧ a2 = some q2 ∧ Good h1 (some q1) v F1 ∧ Good h2 (some q2) v F2

/-- The same outcome, and related results. -/
def SameRes {α β : Type} (P : α → β → Prop) : Res α → Res β → Prop
  | .ok a, .ok b => P a b
  | .err e, .err e' => e = e'
  | .panic, .panic => True
  | .loop, .loop => True
  | _, _ => False

theorem RSim.same {α β : Type} {P : α → β → Prop} {a : Res α} {b : Res β} (h : RSim P a b) : SameRes P a b := by
  match a, b, h with
  | .ok _, .ok _, h => exact h
  | .err _, .err _, h => exact h
  | .panic, .panic, _ => trivial
  | .loop, .loop, _ => trivial

/-- A text without `*` gives the same error, panic or tree in any two memories, with any parsers from the pool and any caches. -/
theorem C125_new (E : Env) (b : Bytes) (hs : 42 ∉ b) (f : Nat) (h1 h2 : Heap) (I1 : Inv h1) (I2 : Inv h2) (p1 p2 : Parser) (pick1 pick2 : Heap → Option Nat) (c1 c2 : Bool) :
    SameRes (fun r1 r2 => SameTree r1.2.h r1.1 r2.2.h r2.1) (newValueFromYaml E pick1 f p1.reset h1 b c1) (newValueFromYaml E pick2 f p2.reset h2 b c2) := by
  refine RSim.same (RSim.trans (newYaml_tree (E := E) (f := f) (p := p1) I1 hs pick1 c1) (newYaml_tree (E := E) (f := f) (p := p2) I2 hs pick2 c2).swap ?_)
  rintro r1 v r2 h h'
  cases v with
  | none => exact Or.inl ⟨h, h'⟩
  | some v =>
    obtain ⟨q1, F1, e1, -, g1⟩ := h
    obtain ⟨q2, F2, e2, -, g2⟩ := h'
    exact Or.inr ⟨q1, q2, v, F1, F2, e1, e2, g1, g2⟩

theorem allBlank : ∀ {b : Bytes}, b.dropWhile isWB = [] → ∀ c ∈ b, isWB c = true
  | [], _, _, hc => by cases hc
  | a :: b, h, c, hc => by
    rw [List.dropWhile_cons] at h
    split at h
    · rename_i ha
      rcases List.mem_cons.1 hc with rfl | hc
      · exact ha
      · exact allBlank h c hc
    · cases h

/-- The same for `LoadFromYaml`, whatever the values were that are loaded, if the text is not blank. -/
theorem C125_load (E : Env) (b : Bytes) (hs : 42 ∉ b) (hne : ∃ c ∈ b, isWB c = false) (f : Nat) (h1 h2 : Heap) (q1 q2 : Ptr) (v1 v2 w1 w2 : Val) (F1 F2 G1 G2 : List Ptr)
    (g1 : Good h1 (some q1) v1 F1) (k1 : Good (Heap.clear h1 q1) (some q1) w1 G1) (h51 : 5 ≤ q1)
    (g2 : Good h2 (some q2) v2 F2) (k2 : Good (Heap.clear h2 q2) (some q2) w2 G2) (h52 : 5 ≤ q2)
    (p1 p2 : Parser) (pick1 pick2 : Heap → Option Nat) :
    SameRes (fun r1 r2 => ∃ v F1 F2, Good r1.h (some q1) v F1 ∧ Good r2.h (some q2) v F2) (loadFromYaml E pick1 f p1.reset h1 q1 b) (loadFromYaml E pick2 f p2.reset h2 q2 b) := by
  have a1 := loadYaml_tree (E := E) (f := f) (p := p1) g1 k1 h51 hs pick1
  have a2 := loadYaml_tree (E := E) (f := f) (p := p2) g2 k2 h52 hs pick2
  have e : loadTree E f b v1 = loadTree E f b v2 := by
    unfold loadTree
    have hne : b.dropWhile isWB ≠ [] := by
      obtain ⟨c, hc, hw⟩ := hne
      intro h
      rw [allBlank h c hc] at hw
      cases hw
    rw [if_neg hne, if_neg hne]
  rw [e] at a1
  refine RSim.same (RSim.trans a1 a2.swap ?_)
  rintro r1 v r2 ⟨F1, h1⟩ ⟨F2, h2⟩
  exact ⟨v, F1, F2, h1, h2⟩

/-- A refused text leaves the same tree in both memories. -/
theorem C125_load_left (E : Env) (b : Bytes) (hs : 42 ∉ b) (hne : ∃ c ∈ b, isWB c = false) (f : Nat) (h1 h2 : Heap) (q1 q2 : Ptr) (v1 v2 w1 w2 : Val) (F1 F2 G1 G2 : List Ptr)
    (g1 : Good h1 (some q1) v1 F1) (k1 : Good (Heap.clear h1 q1) (some q1) w1 G1) (h51 : 5 ≤ q1)
    (g2 : Good h2 (some q2) v2 F2) (k2 : Good (Heap.clear h2 q2) (some q2) w2 G2) (h52 : 5 ≤ q2)
    (p1 p2 : Parser) (pick1 pick2 : Heap → Option Nat) :
    ∃ v F1 F2, Good (parseErr E pick1 f (b.dropWhile isWB) (loadStart p1.reset h1 q1 b)) (some q1) v F1 ∧
      Good (parseErr E pick2 f (b.dropWhile isWB) (loadStart p2.reset h2 q2 b)) (some q2) v F2 := by
  have hne : b.dropWhile isWB ≠ [] := by
    obtain ⟨c, hc, hw⟩ := hne
    intro h
    rw [allBlank h c hc] at hw
    cases hw
  obtain ⟨F1, a1⟩ := loadYaml_left (E := E) (f := f) (p := p1) g1.inv k1 h51 hs hne pick1
  obtain ⟨F2, a2⟩ := loadYaml_left (E := E) (f := f) (p := p2) g2.inv k2 h52 hs hne pick2
  exact ⟨_, F1, F2, a1, a2⟩

/-- `a: 1`, and a list below `b`. -/
def sampleText : Bytes := [97, 58, 32, 49, 10, 98, 58, 10, 32, 32, 45, 32, 120, 10]

/-- The tree it stands for. -/
example : newTree envEx 20 sampleText = .ok (some (.obj true [([97], .str [49]), ([98], .arr [.str [120]])])) := by decide +kernel

example : SameRes (fun r1 r2 => SameTree r1.2.h r1.1 r2.2.h r2.1) (newValueFromYaml envEx (fun _ => none) 20 Parser.fresh.reset (Heap.init fun n => n) sampleText false)
    (newValueFromYaml envEx (fun _ => some 0) 20 { Parser.fresh with first := true, last := 7 }.reset (Heap.newCacheValue (Heap.init fun n => n) .array none).2 sampleText true) :=
  C125_new envEx sampleText (by decide) 20 _ _ (inv_init _) ((inv_init _).newCacheValue .array none) _ _ _ _ _ _

/-! ## C126 -/

/-- What `NewValueFromYaml` does in every memory when the text means a tree. -/
def NewGives (E : Env) (f : Nat) (b : Bytes) (v : Val) : Prop :=
  ∀ (h : Heap) (p : Parser) (pick : Heap → Option Nat) (c : Bool), Inv h →
    ∃ q r F, newValueFromYaml E pick f p.reset h b c = .ok (some q, r) ∧ Good r.h (some q) v F

/-- What `LoadFromYaml` does in every memory, to every value that owns its parts. -/
def LoadGives (E : Env) (f : Nat) (b : Bytes) (v : Val) : Prop :=
  ∀ (h : Heap) (q : Ptr) (v0 w0 : Val) (F G : List Ptr) (p : Parser) (pick : Heap → Option Nat), 5 ≤ q →
    Good h (some q) v0 F → Good (Heap.clear h q) (some q) w0 G →
    ∃ r F', loadFromYaml E pick f p.reset h q b = .ok r ∧ Good r.h (some q) v F'

theorem newGives {E : Env} {f : Nat} {b : Bytes} {v : Val} (hs : 42 ∉ b) (e : newTree E f b = .ok (some v)) : NewGives E f b v := by
  intro h p pick c I
  have s := newYaml_tree (E := E) (f := f) (p := p) I hs pick c
  rw [e] at s
  generalize newValueFromYaml E pick f p.reset h b c = r at s ⊢
  match r, s with
  | .ok (a, r), ⟨q, F, e1, _, g⟩ =>
    cases e1
    exact ⟨q, r, F, rfl, g⟩

theorem loadGives {E : Env} {f : Nat} {b : Bytes} {v : Val} (hs : 42 ∉ b) (e : ∀ v0, loadTree E f b v0 = .ok v) : LoadGives E f b v := by
  intro h q v0 w0 F G p pick h5 g g0
  have s := loadYaml_tree (E := E) (f := f) (p := p) g g0 h5 hs pick
  rw [e v0] at s
  generalize loadFromYaml E pick f p.reset h q b = r at s ⊢
  match r, s with
  | .ok r, ⟨F', g⟩ => exact ⟨r, F', rfl, g⟩

theorem newTree_of {E : Env} {f : Nat} {b : Bytes} (hs : 42 ∉ b) {h : Heap} {p : Parser} {pick : Heap → Option Nat} {c : Bool} (I : Inv h) {q : Ptr} {r : St}
    (e : newValueFromYaml E pick f p.reset h b c = .ok (some q, r)) : ∃ v, newTree E f b = .ok (some v) := by
  have s := newYaml_tree (E := E) (f := f) (p := p) I hs pick c
  rw [e] at s
  generalize newTree E f b = t at s ⊢
  match t, s with
  | .ok none, s => exact absurd (show some q = none from s) (by simp)
  | .ok (some v), _ => exact ⟨v, rfl⟩

/-- A text that begins with no blank and that `NewValueFromYaml` turns into a value, in some memory, is accepted by `LoadFromYaml`, which turns every value into one and the same tree. -/
theorem C126_accept_partial (E : Env) (f : Nat) (b : Bytes) (hs : 42 ∉ b) (hb : ∀ c, b.head? = some c → isWB c = false) (h : Heap) (p : Parser) (pick : Heap → Option Nat) (c : Bool) (I : Inv h) (q : Ptr) (r : St)
    (e : newValueFromYaml E pick f p.reset h b c = .ok (some q, r)) : ∃ w, LoadGives E f b w := by
  obtain ⟨v, e⟩ := newTree_of hs I e
  obtain ⟨m, em, hr, -⟩ := load_new hb e .nil
  refine ⟨m.kept.getD v, loadGives hs fun v0 => ?_⟩
  obtain ⟨m', em', hr', el⟩ := load_new hb e v0
  rw [em] at em'
  cases em'
  exact el

/-- If no line is indented, both give the same tree. -/
theorem C126_partial (E : Env) (f : Nat) (b : Bytes) (hs : 42 ∉ b) (hb : ∀ c, b.head? = some c → isWB c = false) (hn : ∀ i, (i = 0 ∨ b[i - 1]? = some 10) → b[i]? ≠ some 32) (h : Heap) (p : Parser) (pick : Heap → Option Nat) (c : Bool) (I : Inv h) (q : Ptr) (r : St)
    (e : newValueFromYaml E pick f p.reset h b c = .ok (some q, r)) : ∃ v, NewGives E f b v ∧ LoadGives E f b v := by
  obtain ⟨v, e⟩ := newTree_of hs I e
  exact ⟨v, newGives hs e, loadGives hs (load_new_level hn hb e)⟩

/-- A word on a line of its own: `NewValueFromYaml` refuses it, `LoadFromYaml` makes a member of it. -/
theorem C126_word : newTree envEx 20 [97, 98, 99, 10] = .err (.yaml [97, 98, 99]) ∧ LoadGives envEx 20 [97, 98, 99, 10] (.obj true [([97, 98, 99], .obj false [])]) :=
  ⟨by decide +kernel, loadGives (by decide) fun v0 => by rfl⟩

/-- A text that is indented as a whole. -/
def indented : Bytes := [32, 32, 97, 58, 32, 120, 10, 32, 32, 98, 58, 32, 121, 10]

theorem C126_indented : NewGives envEx 20 indented (.obj true [([97], .str [120]), ([98], .str [121])]) ∧ LoadGives envEx 20 indented (.obj true [([97], .obj true [([98], .str [121])])]) :=
  ⟨newGives (by decide) (by decide +kernel), loadGives (by decide) fun v0 => by rfl⟩

/-- A list, a deeper list below its first member, and a member on the left. -/
def secondRoot : Bytes := [45, 32, 97, 10, 32, 32, 45, 32, 98, 10, 99, 58, 32, 119, 10]

/-- `NewValueFromYaml` loses all that came before the last line, `LoadFromYaml` loses the last line. -/
theorem C126_second_root : NewGives envEx 20 secondRoot (.obj true [([99], .str [119])]) ∧ LoadGives envEx 20 secondRoot (.arr [.str [97, 32, 98]]) :=
  ⟨newGives (by decide) (by decide +kernel), loadGives (by decide) fun v0 => by rfl⟩

/-- Flat texts exist: `a: x`, `b: y`. -/
example : NewGives envEx 20 [97, 58, 32, 120, 10, 98, 58, 32, 121, 10] (.obj true [([97], .str [120]), ([98], .str [121])]) ∧
    LoadGives envEx 20 [97, 58, 32, 120, 10, 98, 58, 32, 121, 10] (.obj true [([97], .str [120]), ([98], .str [121])]) :=
  ⟨newGives (by decide) (by decide +kernel), loadGives (by decide) fun v0 => by rfl⟩

end Dxs.Yaml
