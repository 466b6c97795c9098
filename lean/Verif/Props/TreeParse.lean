import Verif.Tree.ParseDet
import Verif.Props.TreeSem

/-!
# C115, C116: programs that parse, on trees; transparent caches
-/

namespace Dxs.Heap

/-! ## C115: programs that parse, load, merge and convert, on trees -/

/-- C115: every variable of a program holds the tree that the statements mean (`PCmd.means`), whatever the memory does.
Missing: what `Cmd.exec` leaves out (C113), and merges that reach constants or put objects into arrays (the statement does nothing there). -/
theorem C115_programs_partial (E : Env) (grow : Nat → Nat) (prog : List PCmd) {s : St} (h : pexecAll E (St.init grow) prog = .ok s) :
    ∃ T, PMeans E (fun _ => .nil) prog T ∧ ∀ i, ∃ F, Rep s.heap.mem (T i) (s.var i) F :=
  Holds.pexecAll E prog (Holds.init grow) (Sound.init grow) h

/-- C115 for one statement in any state: the tree of a variable that the statement does not name stays. -/
theorem C115_others {s s' : St} {T : Trees} {L : Nat → Option Live} (hT : Holds s T) (S : Sound s L) (E : Env) (c : PCmd) (h : c.exec E s = .ok s') :
    ∃ T', Holds s' T' ∧ ∀ i, i ∉ c.vars → T' i = T i := by
  obtain ⟨T', -, h'⟩ := hT.pexec S E c h
  obtain ⟨L', S', hk⟩ := S.pexec E c h
  refine ⟨T', h', fun i hi => ?_⟩
  obtain ⟨F, r⟩ := hT.keep S S'.world.inv (hk i hi)
  obtain ⟨F', r'⟩ := h' i
  exact (rep_det r' r).1

/-! ## C116: caches are transparent for programs that parse -/

theorem sure_parsing (E : Env) (grow : Nat → Nat) (prog : List PCmd) (hs : psureAll E (fun _ => .nil) prog) :
    match pexecAll E (St.init grow) prog with
    | .ok s => ∃ T T', ptreeRun E (fun _ => .nil) prog = .ok T ∧ Holds s T' ∧ ∀ i, canon (T' i) = canon (T i)
    | .panic => ptreeRun E (fun _ => .nil) prog = .panic
    | .loop => ptreeRun E (fun _ => .nil) prog = .loop
    | .err _ => False := by
  have h := ptreeRun_det E prog (Holds.init grow) (Sound.init grow) rfl hs
  generalize pexecAll E (St.init grow) prog = r at h
  match r with
  | .err _ => exact h
  | .loop => exact h
  | .panic => exact h
  | .ok s => obtain ⟨T1, T2, h1, h2, h3⟩ := h; exact ⟨T2, T1, h2, h1, fun i => congrFun h3 i⟩

/-- C116: two programs with the same statements up to where the values come from panic both, do not end both, or give values with the same MessagePack and JSON texts,
equal ones if there is no Float in them. For programs in which nothing of the memory shows (`psureAll`: as in C114; documents are loaded into whole values,
whether they fit, are refused half way or not; `ForcePath` is used on paths it supports; Go data for `NewValueFrom` is stored, see C128). Missing: the others, see `C116_recycled_counterexample`; merges. -/
theorem C116_transparent_partial (E : Env) (grow grow' : Nat → Nat) (prog prog' : List PCmd) (hp : prog.map PCmd.plain = prog'.map PCmd.plain)
    (hs : psureAll E (fun _ => .nil) prog) (hs' : psureAll E (fun _ => .nil) prog') :
    (∃ s s' T T', pexecAll E (St.init grow) prog = .ok s ∧ pexecAll E (St.init grow') prog' = .ok s' ∧ Holds s T ∧ Holds s' T' ∧
      ∀ i, MsgPack.value2MsgPack E (T i) = MsgPack.value2MsgPack E (T' i) ∧ (∀ st d, Json.value2Json E st d (T i) = Json.value2Json E st d (T' i)) ∧
        (noFloat (T i) = true → T i = T' i)) ∨
    (pexecAll E (St.init grow) prog = .panic ∧ pexecAll E (St.init grow') prog' = .panic) ∨
    (pexecAll E (St.init grow) prog = .loop ∧ pexecAll E (St.init grow') prog' = .loop) := by
  have h1 := sure_parsing E grow prog hs
  have h2 := sure_parsing E grow' prog' hs'
  rw [← ptreeRun_plain E prog', ← hp, ptreeRun_plain] at h2
  generalize pexecAll E (St.init grow) prog = r1 at h1
  generalize pexecAll E (St.init grow') prog' = r2 at h2
  match r1, r2 with
  | .err _, _ => exact h1.elim
  | .ok _, .err _ | .panic, .err _ | .loop, .err _ => exact h2.elim
  | .panic, .panic => exact Or.inr (Or.inl ⟨rfl, rfl⟩)
  | .loop, .loop => exact Or.inr (Or.inr ⟨rfl, rfl⟩)
  | .panic, .loop | .loop, .panic => dsimp only at h1 h2; rw [h1] at h2; cases h2
  | .ok _, .panic | .ok _, .loop => obtain ⟨_, _, h, -⟩ := h1; dsimp only at h2; rw [h] at h2; cases h2
  | .panic, .ok _ | .loop, .ok _ => obtain ⟨_, _, h, -⟩ := h2; dsimp only at h1; rw [h] at h1; cases h1
  | .ok s, .ok s' =>
    obtain ⟨T0, T, e1, t1, c1⟩ := h1
    obtain ⟨T0', T', e2, t2, c2⟩ := h2
    rw [e1] at e2; cases e2
    exact Or.inl ⟨s, s', T, T', rfl, rfl, t1, t2, fun i => C11_texts E _ _ (by rw [c1 i, c2 i])⟩

/-- A number loaded into a cached value comes back when the cache is used again: `x := NewCacheValue(VT_Int); x.LoadFromMsgPack([7]); FreeValue(x); x = NewCacheValue(VT_Int)`
shows 7, `x = NewValue(VT_Int)` shows 0. -/
theorem C116_recycled_counterexample :
    let see := fun (p : List PCmd) => (pexecAll envEx (St.init id) p).bind (fun s => .ok ((s.var 0).map (fun p => leafOf (s.heap.mem p))))
    see [.cmd (.newCached 0 .int none), .loadMsgPack 0 [] [7], .cmd (.free 0 0), .cmd (.newCached 0 .int (some 0))] = .ok (some (some (.int 0 7))) ∧
    see [.cmd (.newCached 0 .int none), .loadMsgPack 0 [] [7], .cmd (.free 0 0), .cmd (.newValue 0 .int)] = .ok (some (some (.int 0 0))) := by
  decide +kernel

/-! ## Examples -/

/-- `{"a":[1,2]}` in JSON, a member added, then the MessagePack text `{a: "x"}` loaded into it. -/
def loadProg (cached : Bool) (pick : Option Nat) : List PCmd :=
  [.newJson 0 [123, 34, 97, 34, 58, 91, 49, 44, 50, 93, 125] cached pick (fun _ => []), .cmd (.act 0 [] (.setKeyString [98] [120])), .loadMsgPack 0 [] [0x81, 0xA1, 97, 0xA1, 120],
   .forcePath 0 [] .string [[99], [100]]]

example : (loadProg true (some 3)).map PCmd.plain = (loadProg false none).map PCmd.plain := rfl
/-- After two statements and after all of them. -/
example : (ptreeRun envEx (fun _ => .nil) ((loadProg true none).take 2)).bind (fun T => .ok (T 0)) =
    .ok (.obj true [([97], .arr [.int 0 1, .int 0 2]), ([98], .str [120])]) := by decide +kernel
example : (ptreeRun envEx (fun _ => .nil) (loadProg true none)).bind (fun T => .ok (T 0)) =
    .ok (.obj true [([97], .str [120]), ([99], .obj true [([100], .str [])])]) := by decide +kernel

/-- The program shows nothing of the memory. -/
theorem loadProg_sure (cached : Bool) (pick : Option Nat) : psureAll envEx (fun _ => .nil) (loadProg cached pick) := by
  have e1 : Json.newValueFromJson envEx [123, 34, 97, 34, 58, 91, 49, 44, 50, 93, 125] = .ok (.obj false [([97], .arr [.int 0 1, .int 0 2])]) := by decide +kernel
  refine ⟨trivial, fun T1 h1 => ?_⟩
  simp only [PCmd.onTree, e1, Trees.parsed] at h1
  cases h1
  refine ⟨rfl, fun T2 h2 => ?_⟩
  have e2 : T2 0 = .obj true [([97], .arr [.int 0 1, .int 0 2]), ([98], .str [120])] := by
    have : ((PCmd.cmd (.act 0 [] (.setKeyString [98] [120]))).onTree envEx (Trees.put (fun _ => .nil) 0 (.obj false [([97], .arr [.int 0 1, .int 0 2])]))).bind (fun T => .ok (T 0)) =
        .ok (.obj true [([97], .arr [.int 0 1, .int 0 2]), ([98], .str [120])]) := by decide +kernel
    rw [h2] at this; exact Res.ok.inj this
  refine ⟨⟨rfl, fun v hv => ?_⟩, fun T3 h3 => ?_⟩
  · simp only [Trees.walk, e2] at hv
    cases hv
    rfl
  · have e3 : (loadMsgPackT envEx (canon (.obj true [([97], .arr [.int 0 1, .int 0 2]), ([98], .str [120])])) [0x81, 0xA1, 97, 0xA1, 120]).left = .ok (.obj true [([97], .str [120])]) := by
      decide +kernel
    simp only [PCmd.onTree, Trees.onNode, Trees.walk, e2] at h3
    replace h3 : ((loadMsgPackT envEx (canon (.obj true [([97], .arr [.int 0 1, .int 0 2]), ([98], .str [120])])) [0x81, 0xA1, 97, 0xA1, 120]).left.bind fun w =>
      .ok (T2.put 0 w)) = .ok T3 := h3
    rw [e3] at h3
    cases h3
    refine ⟨fun v hv => ?_, fun _ _ => trivial⟩
    cases hv
    refine ⟨rfl, ?_, Or.inl rfl⟩
    rw [trees_put_same]
    have e4 : objOld envEx true [([97], .str [120])] [99] = none := by decide +kernel
    have e5 : objOld envEx false [] [100] = none := by decide +kernel
    simp [Forceable, StepOk, nextBox, boxAt, e4, e5]

/-- Documents that do not fit or are refused: the MessagePack map `{"0": 5}` and then the first bytes of `["x", "y"]` into an array, and JSON that is refused. -/
def roughProg (cached : Bool) (pick : Option Nat) : List PCmd :=
  [.newJson 0 [91, 49, 93] cached pick (fun _ => []), .loadMsgPack 0 [] [0x81, 0xA1, 48, 5], .loadMsgPack 0 [] [0x92, 0xA1, 120], .loadJson 0 [] [91, 49] (fun _ => [])]

example : (ptreeRun envEx (fun _ => .nil) ((roughProg true none).take 2)).bind (fun T => .ok (T 0)) = .ok (.arr [.int 0 5]) := by decide +kernel
example : (ptreeRun envEx (fun _ => .nil) ((roughProg true none).take 3)).bind (fun T => .ok (T 0)) = .ok (.arr [.str [120]]) := by decide +kernel
example : (ptreeRun envEx (fun _ => .nil) (roughProg true none)).bind (fun T => .ok (T 0)) = .ok .nil := by decide +kernel

/-- Loading into a whole array shows nothing of the memory, whatever the document. -/
theorem roughProg_sure (cached : Bool) (pick : Option Nat) : psureAll envEx (fun _ => .nil) (roughProg cached pick) := by
  have e1 : Json.newValueFromJson envEx [91, 49, 93] = .ok (.arr [.int 0 1]) := by decide +kernel
  have e2 : (loadMsgPackT envEx (canon (.arr [.int 0 1])) [0x81, 0xA1, 48, 5]).left = .ok (.arr [.int 0 5]) := by decide +kernel
  have e3 : (loadMsgPackT envEx (canon (.arr [.int 0 5])) [0x92, 0xA1, 120]).left = .ok (.arr [.str [120]]) := by decide +kernel
  have load : ∀ {T T' : Trees} {v w : Val} {b : Bytes}, T 0 = v → v ≠ .nil → (loadMsgPackT envEx (canon v) b).left = .ok w → (PCmd.loadMsgPack 0 [] b).onTree envEx T = .ok T' → T' 0 = w := by
    intro T T' v w b hT hv hw h
    have hk : T.walk 0 [] = .ok v := by
      unfold Trees.walk
      rw [hT]
      cases v <;> first | rfl | exact absurd rfl hv
    simp only [PCmd.onTree, Trees.onNode, hk] at h
    replace h : ((loadMsgPackT envEx (canon v) b).left.bind fun w => .ok (T.put 0 (Val.subst (T 0) [] w))) = .ok T' := h
    rw [hw] at h
    cases h
    rfl
  have arr : ∀ {T : Trees} {xs : List Val}, T 0 = .arr xs → ([] : List Nat) = [] ∧ ∀ v, T.walk 0 [] = .ok v → isConst v = false := by
    intro T xs hT
    refine ⟨rfl, fun v hv => ?_⟩
    simp only [Trees.walk, hT] at hv
    cases hv
    rfl
  refine ⟨trivial, fun T1 h1 => ?_⟩
  simp only [PCmd.onTree, e1, Trees.parsed] at h1
  cases h1
  refine ⟨arr (xs := [.int 0 1]) rfl, fun T2 h2 => ?_⟩
  have t2 := load rfl (by nofun) e2 h2
  refine ⟨arr t2, fun T3 h3 => ?_⟩
  have t3 := load t2 (by nofun) e3 h3
  exact ⟨arr t3, fun _ _ => trivial⟩

/-- `x = NewValueFrom(map[string]interface{}{"a": 1}, cached); x.SetKeyvalue("b", []byte{9}, x.ValueCache())`. -/
def newFromProg (cached own : Bool) (pick : Option Nat) : List PCmd := [.newFrom 0 (.map [([97], .sc (.int 1))]) cached pick, .setKeyvalue 0 [] [98] (.bytes [9]) own]

example : (newFromProg true true (some 3)).map PCmd.plain = (newFromProg false false none).map PCmd.plain := rfl
example : (ptreeRun envEx (fun _ => .nil) (newFromProg true true none)).bind (fun T => .ok (T 0)) = .ok (.obj true [([97], .int 0 1), ([98], .bin 0 [9])]) := by decide +kernel

/-- The program shows nothing of the memory. -/
theorem newFromProg_sure (cached own : Bool) (pick : Option Nat) : psureAll envEx (fun _ => .nil) (newFromProg cached own pick) := by
  have e1 : Reflect.goVal envEx (.obj false []) (.map [([97], .sc (.int 1))]) = .ok (.obj true [([97], .int 0 1)]) := by decide +kernel
  refine ⟨rfl, fun T1 h1 => ⟨fun v hv => ?_, fun _ _ => trivial⟩⟩
  simp only [PCmd.onTree, e1] at h1
  cases h1
  cases hv
  rfl

end Dxs.Heap
