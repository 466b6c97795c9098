import Verif.Tree.Det
import Verif.Props.Load

/-!
# C112, C113, C114: new values, programs on trees, transparent caches
-/

namespace Dxs.Heap

/-! ## C112: a new value starts at zero -/

/-- The zero value of a type. -/
def zeroVal : VT → Val
  | .object => .obj false []
  | .array => .arr []
  | .string => .str []
  | .rawString => .raw []
  | .int => .int 0 0
  | .float => .float 0
  | .double => .double 0
  | .dateTime => .dateTime 0
  | .binary => .bin 0 []
  | .exBinary => .exbin 0 []
  | .null => .null
  | .true => .tru
  | .false => .fls
  | .nan => .nan
  | .inf => .inf

theorem blank_zero (t : VT) : blankVal t 0 = zeroVal t := by cases t <;> rfl

/-- C112 for `NewValue`, in every memory and for every type. -/
theorem C112_newValue {h : Heap} (I : Inv h) (t : VT) : ∃ F, Rep (newValue h t).2.mem (zeroVal t) (some (newValue h t).1) F := by
  obtain ⟨G, -, g, -⟩ := newValue_zero I t
  rw [blank_zero] at g
  exact ⟨G, g.rep⟩

/-- C112 for `NewCacheValue` and the types that are no numbers. Missing: the numbers, see `C112_recycled_counterexample`. -/
theorem C112_newCached_partial {h : Heap} (I : Inv h) (t : VT) (ht : t ≠ .int ∧ t ≠ .float ∧ t ≠ .double ∧ t ≠ .dateTime) (pick : Option Nat) :
    ∃ F, Rep (newCacheValue h t pick).2.mem (zeroVal t) (some (newCacheValue h t pick).1) F := by
  obtain ⟨c, F, hr⟩ := newCached_rep I t pick
  rw [blankVal_sure (by cases t <;> simp_all [numeric]) c 0, blank_zero] at hr
  exact ⟨F, hr⟩

/-- C112 for `Reset`. Missing: the numbers, see `C112_reset_counterexample`. -/
theorem C112_reset_partial {h : Heap} {p : Ptr} {v : Val} {F : List Ptr} (g : Good h (some p) v F) (h5 : 5 ≤ p) (t : VT)
    (ht : t ≠ .int ∧ t ≠ .float ∧ t ≠ .double ∧ t ≠ .dateTime) : ∃ F', Good (reset h p t) (some p) (zeroVal t) F' := by
  have u := reset_upd g h5 t
  rw [blankVal_sure (by cases t <;> simp_all [numeric]) _ 0, blank_zero] at u
  exact ⟨_, u.good⟩

/-- C112 for `InsertValue` and `Append`, for every type: the new element is a zero. -/
theorem C112_insertValue {h : Heap} {p : Ptr} {xs : List Val} {F : List Ptr} (g : Good h (some p) (.arr xs) F) (i : Int) (t : VT) :
    ∃ F', Good (insertValue h p i t).2 (some p) (.arr (xs.take i.toNat ++ [zeroVal t] ++ xs.drop i.toNat)) F' := by
  obtain ⟨F0, rfl, h5, -⟩ := g.arr_inv
  obtain ⟨F', u⟩ := insertValue_exact g h5 i t
  rw [blank_zero] at u
  exact ⟨F', u.good⟩

/-- C112 for `SetKey` of a new name, for the types that are no numbers: the member is there, last, and is a zero. -/
theorem C112_setKey_partial {E : Env} {h : Heap} {p : Ptr} {kvs : List (Bytes × Val)} {F : List Ptr} (g : Good h (some p) (.obj true kvs) F) (k : Bytes) (t : VT)
    (ht : t ≠ .int ∧ t ≠ .float ∧ t ≠ .double ∧ t ≠ .dateTime) (hk : ∀ kv ∈ kvs, E.keyMatch kv.1 k = false) :
    ∃ q h' F', setKey E h p k t = .ok (q, h') ∧ Good h' (some p) (.obj true (kvs ++ [(k, zeroVal t)])) F' := by
  obtain ⟨F0, rfl, h5, -⟩ := g.obj_inv
  have hi : indexByName E true kvs k = (none, true, kvs) := by
    have : findKey E kvs k = none := by
      unfold findKey
      rw [List.findIdx?_eq_none_iff]
      exact fun kv hkv => hk kv hkv
    simp [indexByName, unescKeys, this]
  have := setKey_handsX (E := E) g h5 k t
  generalize setKey E h p k t = r at this
  match r with
  | .err _ => exact this.elim
  | .loop => exact this.elim
  | .panic => obtain ⟨-, h2⟩ := this; simp [oldName, asIndex, objOld, objOf, hi] at h2
  | .ok (q, h1) =>
    obtain ⟨⟨c, Fq, gq, hq, hu⟩, -⟩ := this
    obtain ⟨F', u⟩ := hu _ _ _ gq.upd_refl
    refine ⟨q, h1, F', rfl, ?_⟩
    have e : putName E (.obj true kvs) k (slotOf t c (oldName E (.obj true kvs) k)) = .obj true (kvs ++ [(k, zeroVal t)]) := by
      have : oldName E (.obj true kvs) k = none := by simp [oldName, asIndex, objOld, objOf, hi]
      rw [this]
      simp only [slotOf]
      rw [blankVal_sure (by cases t <;> simp_all [numeric]) c 0, blank_zero]
      simp [putName, asIndex, objOf, objPut, setKeyValueObj, hi]
    rw [← e]; exact u.good

/-- `NewCacheValue(VT_Int)` in recycled memory shows the number a freed value had: `x := NewCacheValue(VT_Int); x.SetInt(7); FreeValue(x); x = NewCacheValue(VT_Int)`. -/
theorem C112_recycled_counterexample :
    ((execAll envEx (St.init id) [.newCached 0 .int none, .act 0 [] (.setInt 7), .free 0 0, .newCached 0 .int (some 0)]).bind
      (fun s => .ok ((s.var 0).map (fun p => leafOf (s.heap.mem p))))) = .ok (some (some (.int 0 7))) := by decide +kernel

/-- `Reset(VT_Int)` of a Double keeps its bits, whatever they are. -/
theorem C112_reset_counterexample {h : Heap} {p : Ptr} {x : F64} {F : List Ptr} (g : Good h (some p) (.double x) F) (h5 : 5 ≤ p) :
    ∃ F', Good (reset h p .int) (some p) (.int 0 x) F' := by
  have u := reset_upd g h5 .int
  have : (h.mem p).cell = x := by
    have hd := rep_dt g.rep
    obtain ⟨q, hq, -, hl⟩ := g.rep
    cases hq
    rw [view_ge h5] at hl
    simp only [Val.vt] at hd
    simpa [leafOf, hd] using hl
  rw [this] at u
  exact ⟨_, u.good⟩

/-! ## C113: programs in memory are programs on trees -/

/-- C113: whatever a program does in memory - caches, pool, reuse of nodes, growth of the arenas, shared constants - every variable holds the tree
that the same statements give on plain trees, and it panics exactly when they panic. The oracles say what the memory decides: the number left in a node
that is made a bare number, and whether a Null, True, False, NaN or Inf is a shared constant.
Missing: operations on the shared constants, storing a value inside itself, copies of own nodes of type True, False, NaN, Inf (`Cmd.exec` does nothing there). -/
theorem C113_programs_partial (E : Env) (grow : Nat → Nat) (prog : List Cmd) :
    (∃ s os T, execAll E (St.init grow) prog = .ok s ∧ os.length = prog.length ∧ treeAll E (fun _ => .nil) (prog.zip os) = .ok T ∧
      ∀ i, ∃ F, Rep s.heap.mem (T i) (s.var i) F) ∨
    (∃ os, execAll E (St.init grow) prog = .panic ∧ os.length = prog.length ∧ treeAll E (fun _ => .nil) (prog.zip os) = .panic) := by
  have h := program_refine E prog (Holds.init grow) (Sound.init grow)
  generalize execAll E (St.init grow) prog = r at h
  match r with
  | .err _ => exact h.elim
  | .loop => exact h.elim
  | .panic => obtain ⟨os, h1, h2⟩ := h; exact Or.inr ⟨os, rfl, h1, h2⟩
  | .ok s => obtain ⟨os, T, h1, h2, h3⟩ := h; exact Or.inl ⟨s, os, T, rfl, h1, h2, h3⟩

/-- C113 for one operation on one node, in any memory: only the node's own tree changes, and it changes as the plain tree does. -/
theorem C113_operation (E : Env) {h : Heap} {p : Ptr} {v : Val} {F : List Ptr} (g : Good h (some p) v F) (h5 : 5 ≤ p) (m : Mut) :
    (∃ h' c v' F', m.run E h p = .ok h' ∧ m.onTree E c v = .ok v' ∧ Good h' (some p) v' F' ∧
      ∀ w a G, Good h a w G → (∀ q ∈ G, q ∉ F) → Rep h'.mem w a G) ∨
    (m.run E h p = .panic ∧ ∀ c, m.onTree E c v = .panic) := by
  have := Mut.exact (E := E) g h5 m
  generalize m.run E h p = r at this
  match r with
  | .err _ => exact this.elim
  | .loop => exact this.elim
  | .panic => exact Or.inr ⟨rfl, this⟩
  | .ok h' =>
    obtain ⟨c, v', F', e, u⟩ := this
    refine Or.inl ⟨h', c, v', F', rfl, e, u.good, fun w a G gw hd => ?_⟩
    exact rep_frame gw.rep ⟨fun q hq => u.frame.mem q (rep_ge gw.rep q hq) (hd q hq) (gw.live q hq), fun _ hp => gw.inv.dt_const u.frame.inv hp⟩

/-- The trees are determined by the memory. -/
theorem C113_unique {s : St} {T T' : Trees} (h : Holds s T) (h' : Holds s T') : T = T' := by
  funext i
  obtain ⟨F, hr⟩ := h i
  obtain ⟨F', hr'⟩ := h' i
  exact (rep_det hr hr').1

/-! ## C114: caches are transparent -/

/-- What a program gives, without any memory: the plain statements, on plain trees. -/
theorem sure_program (E : Env) (grow : Nat → Nat) (prog : List Cmd) (hs : sureAll E (fun _ => .nil) prog = true) :
    match execAll E (St.init grow) prog with
    | .ok s => ∃ T T', treeRun E (fun _ => .nil) prog = .ok T ∧ Holds s T' ∧ ∀ i, canon (T' i) = canon (T i)
    | .panic => treeRun E (fun _ => .nil) prog = .panic
    | _ => False := by
  have h := program_refine E prog (Holds.init grow) (Sound.init grow)
  generalize execAll E (St.init grow) prog = r at h
  match r with
  | .err _ => exact h.elim
  | .loop => exact h.elim
  | .panic =>
    obtain ⟨os, h1, h2⟩ := h
    have := treeAll_det E prog os (fun _ => .nil) (fun _ => .nil) h1 rfl hs
    rw [h2] at this
    dsimp only
    generalize treeRun E (fun _ => Val.nil) prog = r at this
    cases r <;> simp [canonTR] at this ⊢
  | .ok s =>
    obtain ⟨os, T, h1, h2, h3⟩ := h
    have := treeAll_det E prog os (fun _ => .nil) (fun _ => .nil) h1 rfl hs
    rw [h2] at this
    dsimp only
    generalize treeRun E (fun _ => Val.nil) prog = r at this
    cases r <;> simp [canonTR] at this
    rename_i T0
    exact ⟨T0, T, rfl, h3, fun i => congrFun this i⟩

theorem treeRun_plain (E : Env) : ∀ (T : Trees) (p q : List Cmd), p.map Cmd.plain = q.map Cmd.plain → treeRun E T p = treeRun E T q
  | _, [], [], _ => rfl
  | _, [], _ :: _, h => by cases h
  | _, _ :: _, [], h => by cases h
  | T, c :: p, d :: q, h => by
    simp only [List.map_cons, List.cons.injEq] at h
    simp only [treeRun, h.1]
    cases d.plain.onTree E {} T with
    | ok T' => exact treeRun_plain E T' p q h.2
    | _ => rfl

/-- C114: two programs with the same statements up to where the values come from - from a cache or not, from which recycled cache, freed once or several
times, with any growth of the arenas - panic both or give values with the same MessagePack and JSON texts, equal ones if there is no Float in them. For programs in
which nothing of the memory shows (`sureAll`: no bare number is made in recycled memory, no operation works on a Null, True, False, NaN or Inf, none of them is copied).
Missing: the others, see `C114_recycled_counterexample`. -/
theorem C114_transparent_partial (E : Env) (grow grow' : Nat → Nat) (prog prog' : List Cmd) (hp : prog.map Cmd.plain = prog'.map Cmd.plain)
    (hs : sureAll E (fun _ => .nil) prog = true) (hs' : sureAll E (fun _ => .nil) prog' = true) :
    (∃ s s' T T', execAll E (St.init grow) prog = .ok s ∧ execAll E (St.init grow') prog' = .ok s' ∧ Holds s T ∧ Holds s' T' ∧
      ∀ i, MsgPack.value2MsgPack E (T i) = MsgPack.value2MsgPack E (T' i) ∧ (∀ st d, Json.value2Json E st d (T i) = Json.value2Json E st d (T' i)) ∧
        (noFloat (T i) = true → T i = T' i)) ∨
    (execAll E (St.init grow) prog = .panic ∧ execAll E (St.init grow') prog' = .panic) := by
  have h1 := sure_program E grow prog hs
  have h2 := sure_program E grow' prog' hs'
  rw [← treeRun_plain E (fun _ => .nil) prog prog' hp] at h2
  generalize execAll E (St.init grow) prog = r1 at h1
  generalize execAll E (St.init grow') prog' = r2 at h2
  match r1, r2 with
  | .err _, _ => exact h1.elim
  | .loop, _ => exact h1.elim
  | .ok _, .err _ => exact h2.elim
  | .ok _, .loop => exact h2.elim
  | .panic, .err _ => exact h2.elim
  | .panic, .loop => exact h2.elim
  | .panic, .panic => exact Or.inr ⟨rfl, rfl⟩
  | .ok _, .panic => obtain ⟨_, _, h, -⟩ := h1; rw [h] at h2; cases h2
  | .panic, .ok _ => obtain ⟨_, _, h, -⟩ := h2; rw [h] at h1; cases h1
  | .ok s, .ok s' =>
    obtain ⟨T0, T, e1, t1, c1⟩ := h1
    obtain ⟨T0', T', e2, t2, c2⟩ := h2
    rw [e1] at e2; cases e2
    exact Or.inl ⟨s, s', T, T', rfl, rfl, t1, t2, fun i => C11_texts E _ _ (by rw [c1 i, c2 i])⟩

/-- The program of `C112_recycled_counterexample` shows 7; without the cache it shows 0. -/
theorem C114_recycled_counterexample :
    let see := fun (p : List Cmd) => (execAll envEx (St.init id) p).bind (fun s => .ok ((s.var 0).map (fun p => leafOf (s.heap.mem p))))
    see [.newCached 0 .int none, .act 0 [] (.setInt 7), .free 0 0, .newCached 0 .int (some 0)] = .ok (some (some (.int 0 7))) ∧
    see [.newCached 0 .int none, .act 0 [] (.setInt 7), .free 0 0, .newValue 0 .int] = .ok (some (some (.int 0 0))) := by
  decide +kernel

/-! ## Examples -/

/-- An object with an array and a copy of it, a value freed and its memory used again. -/
def treeProg (cached : Bool) (pick : Option Nat) : List Cmd :=
  [.newObject 0 cached pick, .act 0 [] (.setKeyInt [97] 1), .newArray 1 cached pick, .act 1 [] (.setIndexString 0 [120]), .putKey 0 [] [98] 1,
   .clone 2 0 [] cached pick 9, .act 0 [1, 0] (.setInt 5), .free 2 1, .newObject 3 cached (some 0), .act 3 [] (.setKeyDouble [99] 3), .act 0 [] (.removeKey [97])]

example : sureAll envEx (fun _ => .nil) (treeProg true none) = true := by decide +kernel
example : sureAll envEx (fun _ => .nil) (treeProg false none) = true := by decide +kernel
example : (treeProg true none).map Cmd.plain = (treeProg false none).map Cmd.plain := rfl
example : (treeRun envEx (fun _ => .nil) (treeProg true none)).bind (fun T => .ok [T 0, T 1, T 2, T 3]) =
    .ok [.obj true [([98], .arr [.int 0 5])], .nil, .nil, .obj true [([99], .double 3)]] := by decide +kernel
/-- A statement that panics: the member is not there. -/
example : (treeRun envEx (fun _ => .nil) [.newObject 0 false none, .act 0 [0] (.setInt 1)]).bind (fun T => .ok (T 0)) = .panic := by decide +kernel
example : Mut.onTree envEx 0 (.setKeyString [97] [98]) (.obj true [([97], .int 0 1)]) = .ok (.obj true [([97], .str [98])]) := by decide +kernel

end Dxs.Heap
