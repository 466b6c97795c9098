import Verif.Tree.AskProg
import Verif.Props.TreeParse

/-!
# C118, C119: what a program prints
-/

namespace Dxs.Heap

/-- A clock for the examples: no text is a time. -/
def noClock : Clock Unit := ⟨fun _ _ => none, fun _ => 0, fun _ => (), (), fun _ => none⟩

/-! ## C118: the output is what the trees say -/

/-- C118: what a program prints is what the statements mean for the trees (`OCmd.means`), whatever the memory does, and afterwards the variables hold the trees.
Missing: what C115 leaves out, and `Equal` of two positions of one variable when something is to be unescaped in them. -/
theorem C118_outputs_partial {τ : Type} (E : Env) (C : Clock τ) (grow : Nat → Nat) (prog : List (OCmd τ)) {o : List (Ans τ)} {s : St} (h : oexecAll E C (St.init grow) prog = .ok (o, s)) :
    ∃ T, OMeans E C (fun _ => .nil) prog o T ∧ ∀ i, ∃ F, Rep s.heap.mem (T i) (s.var i) F :=
  Holds.oexecAll E C prog (Holds.init grow) (Sound.init grow) h

/-- C118 for one question in any state: the answer, an error, a panic and a loop are those of the tree. -/
theorem C118_question {τ : Type} {s : St} {T : Trees} {L : Nat → Option Live} (hT : Holds s T) (S : Sound s L) (E : Env) (C : Clock τ) (i : Nat) (π : List Nat) (a : Ask τ) :
    ((OCmd.ask i π a).exec E C s).bind (fun r => .ok r.1) = (T.walk i π).bind (fun v => (a.onTree E C v).1.bind (fun x => .ok [x])) := by
  simp only [OCmd.exec]
  cases e : s.walk i π with
  | ok q =>
    obtain ⟨v, hv, h1, -⟩ := hT.asked S E C e a
    rw [hv]
    simp only [Res.bind_ok]
    rw [h1]
    show _ = (a.onTree E C v).1.bind _
    cases (a.onTree E C v).1 <;> rfl
  | panic => have hw := hT.walk S i π; rw [e] at hw; rw [show T.walk i π = .panic from hw]; rfl
  | err _ => have hw := hT.walk S i π; rw [e] at hw; exact hw.elim
  | loop => have hw := hT.walk S i π; rw [e] at hw; exact hw.elim

/-- C118: asking changes at most the escapes of the value asked: all other variables hold what they held, the value asked has the tree that `Ask.onTree` gives. -/
theorem C118_effect {τ : Type} {s s' : St} {T : Trees} {L : Nat → Option Live} (hT : Holds s T) (S : Sound s L) (E : Env) (C : Clock τ) (i : Nat) (π : List Nat) (a : Ask τ) {o : List (Ans τ)}
    (h : (OCmd.ask i π a).exec E C s = .ok (o, s')) :
    ∃ T', Holds s' T' ∧ (∀ j, j ≠ i → T' j = T j) ∧ ∃ v, T.walk i π = .ok v ∧ T' i = Val.subst (T i) π (a.onTree E C v).2 := by
  obtain ⟨T', ⟨v, x, hv, -, -, rfl⟩, h', -⟩ := hT.oexec S E C _ h
  exact ⟨_, h', fun j hj => trees_put_ne _ _ hj, v, hv, trees_put_same _ _ _⟩

/-- C118: `Equal` of values of two variables prints what the trees say, and afterwards exactly what it had to unescape is unescaped (`compared`); nothing else has changed. -/
theorem C118_equal {τ : Type} {s s' : St} {T : Trees} {L : Nat → Option Live} (hT : Holds s T) (S : Sound s L) (E : Env) (C : Clock τ) {i j : Nat} (hij : i ≠ j) (π ρ : List Nat) (f : Nat) {o : List (Ans τ)}
    (h : (OCmd.same i π j ρ f).exec E C s = .ok (o, s')) :
    ∃ T' v w b, Holds s' T' ∧ T.walk i π = .ok v ∧ T.walk j ρ = .ok w ∧ eqVal E v w = .ok b ∧ o = [.flag b] ∧
      T' i = Val.subst (T i) π (compared E v w).1 ∧ T' j = Val.subst (T j) ρ (compared E v w).2 ∧ ∀ k, k ≠ i → k ≠ j → T' k = T k := by
  obtain ⟨T', ⟨v, w, hv, hw, hm⟩, h', -⟩ := hT.oexec S E C _ h
  rw [if_pos (Or.inl hij)] at hm
  obtain ⟨b, hb, ho, rfl⟩ := hm
  refine ⟨_, v, w, b, h', hv, hw, hb, ho, ?_, trees_put_same _ _ _, fun k h1 h2 => ?_⟩
  · rw [trees_put_ne _ _ hij, trees_put_same]
  · rw [trees_put_ne _ _ h2, trees_put_ne _ _ h1]

/-! ## C119: the output does not show the caches -/

theorem sure_output {τ : Type} (E : Env) (C : Clock τ) (grow : Nat → Nat) (prog : List (OCmd τ)) (hs : osureAll E C (fun _ => .nil) prog) :
    (oexecAll E C (St.init grow) prog).bind (fun r => .ok r.1) = (otreeRun E C (fun _ => .nil) prog).bind (fun r => .ok r.1) := by
  have h := otreeRun_det E C prog (Holds.init grow) (Sound.init grow) rfl hs
  generalize oexecAll E C (St.init grow) prog = r at h
  match r with
  | .err _ => dsimp only at h; rw [h]; rfl
  | .loop => dsimp only at h; rw [h]; rfl
  | .panic => dsimp only at h; rw [h]; rfl
  | .ok (o, s) => obtain ⟨T1, T2, h1, h2, h3⟩ := h; rw [h2]; rfl

/-- C119: two programs with the same statements up to where the values come from print the same, or fail the same way. For programs in which nothing of the memory shows
(`osureAll`: as in C116; no `Bool` of a Float, no `ToBson` of a value with Floats, no `Equal` of values with Floats). Missing: the others, see the counterexamples. -/
theorem C119_transparent_partial {τ : Type} (E : Env) (C : Clock τ) (grow grow' : Nat → Nat) (prog prog' : List (OCmd τ)) (hp : prog.map OCmd.plain = prog'.map OCmd.plain)
    (hs : osureAll E C (fun _ => .nil) prog) (hs' : osureAll E C (fun _ => .nil) prog') :
    (oexecAll E C (St.init grow) prog).bind (fun r => .ok r.1) = (oexecAll E C (St.init grow') prog').bind (fun r => .ok r.1) := by
  rw [sure_output E C grow prog hs, sure_output E C grow' prog' hs', ← otreeRun_plain E C prog', ← hp, otreeRun_plain]

/-- What a program prints. -/
def prints (p : List (OCmd Unit)) : Res (List (Ans Unit)) := (oexecAll envEx noClock (St.init id) p).bind fun r => .ok r.1

/-- `x := NewCacheValue(VT_Double); x.SetDouble(-1); FreeValue(x)` and then `x = NewCacheValue(VT_Float); x.SetFloat(1); x.Bool()` is false, with `NewValue` it is true. -/
theorem C119_bool_counterexample :
    prints [.run (.cmd (.newCached 0 .double none)), .run (.cmd (.act 0 [] (.setDouble 0xbff0000000000000))), .run (.cmd (.free 0 0)),
      .run (.cmd (.newCached 0 .float (some 0))), .run (.cmd (.act 0 [] (.setFloat 0x3f800000))), .ask 0 [] (.here .bool)] = .ok [.flag false] ∧
    prints [.run (.cmd (.newCached 0 .double none)), .run (.cmd (.act 0 [] (.setDouble 0xbff0000000000000))), .run (.cmd (.free 0 0)),
      .run (.cmd (.newValue 0 .float)), .run (.cmd (.act 0 [] (.setFloat 0x3f800000))), .ask 0 [] (.here .bool)] = .ok [.flag true] := by decide +kernel

/-- The same with an object: the bits of the freed number are in the BSON text. -/
theorem C119_bson_counterexample :
    let p := fun (c : Cmd) => prints [.run (.cmd (.newCached 0 .double none)), .run (.cmd (.act 0 [] (.setDouble 0xbff0000000000000))), .run (.cmd (.free 0 0)),
      .run (.cmd c), .run (.cmd (.act 0 [] (.setFloat 0x3f800000))), .run (.cmd (.newObject 1 false none)), .run (.cmd (.putKey 1 [] [97] 0)), .ask 1 [] (.here .bson)]
    p (.newCached 0 .float (some 0)) = .ok [.text [16, 0, 0, 0, 1, 97, 0, 0, 0, 128, 63, 0, 0, 240, 191, 0]] ∧
    p (.newValue 0 .float) = .ok [.text [16, 0, 0, 0, 1, 97, 0, 0, 0, 128, 63, 0, 0, 0, 0, 0]] := by decide +kernel

/-- `Equal` compares the whole words. -/
theorem C119_equal_counterexample :
    let p := fun (c : Cmd) => prints [.run (.cmd (.newCached 0 .double none)), .run (.cmd (.act 0 [] (.setDouble 0xbff0000000000000))), .run (.cmd (.free 0 0)),
      .run (.cmd c), .run (.cmd (.act 0 [] (.setFloat 0x3f800000))), .run (.cmd (.newValue 1 .float)), .run (.cmd (.act 1 [] (.setFloat 0x3f800000))), .same 0 [] 1 [] 3]
    p (.newCached 0 .float (some 0)) = .ok [.flag false] ∧ p (.newValue 0 .float) = .ok [.flag true] := by decide +kernel

/-! ## Examples -/

/-- `{"a":[1,2]}` parsed; the name of the member, its second element, the text and the number of members are printed. -/
def askProg (cached : Bool) (pick : Option Nat) : List (OCmd Unit) :=
  [.run (.newJson 0 [123, 34, 97, 34, 58, 91, 49, 44, 50, 93, 125] cached pick (fun _ => [])), .ask 0 [] (.keyName 0), .ask 0 [0] (.index 1 (.num 0) .int), .ask 0 [] (.path [[97], [48]] (.num 9) .int),
   .ask 0 [] (.path [[98]] (.num 9) .int), .ask 0 [] (.here (.json false .noEscape false)), .ask 0 [] (.here .count)]

example : prints (askProg true none) =
    .ok [.text [97], .num 2, .num 1, .num 9, .text [123, 34, 97, 34, 58, 91, 49, 44, 50, 93, 125], .size 1] := by decide +kernel

/-- The program shows nothing of the memory. -/
theorem askProg_sure (cached : Bool) (pick : Option Nat) : osureAll envEx noClock (fun _ => .nil) (askProg cached pick) := by
  have hi : ∀ w, Get.int.sure w = true := fun _ => rfl
  refine ⟨trivial, fun _ T1 _ => ⟨fun _ _ => rfl, fun _ T2 _ => ⟨fun v _ => ?_, fun _ T3 _ => ⟨fun v _ => ?_, fun _ T4 _ => ⟨fun v _ => ?_, fun _ T5 _ => ⟨fun _ _ => rfl, fun _ T6 _ => ⟨fun _ _ => rfl, fun _ T7 _ => trivial⟩⟩⟩⟩⟩⟩⟩
  · exact (Ask.sure_of envEx v hi [] 1 (.num 0)).2.2
  · exact (Ask.sure_of envEx v hi [[97], [48]] 0 (.num 9)).2.1
  · exact (Ask.sure_of envEx v hi [[98]] 0 (.num 9)).2.1

/-- So it prints the same with and without a cache, whatever the pool gives. -/
example (pick : Option Nat) : (oexecAll envEx noClock (St.init id) (askProg true pick)).bind (fun r => .ok r.1) = prints (askProg false none) :=
  C119_transparent_partial envEx noClock id id _ _ rfl (askProg_sure true pick) (askProg_sure false none)

/-- `Equal` of values without escapes prints. -/
example : prints [.run (.cmd (.newValue 0 .int)), .run (.cmd (.newValue 1 .int)), .same 0 [] 1 [] 3, .run (.cmd (.act 0 [] (.setInt 7))), .same 0 [] 1 [] 3] =
    .ok [.flag true, .flag false] := by decide +kernel
/-- `{"\\n":1}` twice, compared: the names are unescaped by it. -/
example : prints [.run (.newJson 0 [123, 34, 92, 110, 34, 58, 49, 125] false none (fun _ => [])), .run (.newJson 1 [123, 34, 92, 110, 34, 58, 49, 125] false none (fun _ => [])),
    .ask 0 [] (.keyName 0), .same 0 [] 1 [] 3, .ask 0 [] (.keyName 0), .ask 1 [] (.keyName 0)] =
    .ok [.text [92, 110], .flag true, .text [10], .text [10]] := by decide +kernel
/-- A question to nothing panics. -/
example : prints [.ask 0 [] (.here .count)] = .panic := by decide +kernel
/-- `{"\\n":1}`: the name as it is, then unescaped by writing the BSON text. -/
example : prints [.run (.newJson 0 [123, 34, 92, 110, 34, 58, 49, 125] false none (fun _ => [])), .ask 0 [] (.keyName 0), .ask 0 [] (.here .bson), .ask 0 [] (.keyName 0)] =
    .ok [.text [92, 110], .text [12, 0, 0, 0, 16, 10, 0, 1, 0, 0, 0, 0], .text [10]] := by decide +kernel

end Dxs.Heap
