import Verif.Load.Prog
import Verif.EnvEx

/-!
# C43, C44: values in use and the pool
-/

namespace Dxs.Heap

/-! ## The specification -/

/-- The node `p` contains a pointer to `q`. -/
inductive Stored (m : Ptr → Node) (p : Ptr) : Ptr → Prop where
  | member {k : Bytes} {q : Ptr} : (m p).dt = .object → (k, some q) ∈ (m p).kvs → Stored m p q
  | element {q : Ptr} : (m p).dt = .array → some q ∈ (m p).arr → Stored m p q

/-- `q` is a node of the value `p`. -/
inductive Reach (m : Ptr → Node) (p : Ptr) : Ptr → Prop where
  | here : Reach m p p
  | step {q r : Ptr} : Reach m p q → Stored m q r → Reach m p r

/-! ## The nodes of a tree are closed under `Stored` -/

/-- The pointers of a member list. -/
theorem repL_mem {m : Ptr → Node} : ∀ {xs : List Val} {ps : List (Option Ptr)} {F : List Ptr} {r : Ptr}, RepL m xs ps F → some r ∈ ps → r < 5 ∨ r ∈ F
  | [], _, _, _, h, hr => by obtain ⟨rfl, -⟩ := h; cases hr
  | x :: xs, _, _, r, h, hr => by
    obtain ⟨q, qs, F1, F2, rfl, rfl, h1, h2⟩ := h
    rcases List.mem_cons.1 hr with e | hr
    · subst e
      rcases Nat.lt_or_ge r 5 with h5 | h5
      · exact Or.inl h5
      · exact Or.inr (List.mem_append_left _ (rep_mem h1 h5))
    · exact (repL_mem h2 hr).imp id (List.mem_append_right _)

mutual
theorem rep_closed {m : Ptr → Node} : ∀ {v : Val} {a : Option Ptr} {F : List Ptr}, Rep m v a F → ∀ q ∈ F, ∀ r, Stored m q r → r < 5 ∨ r ∈ F
  | .nil, a, F, h, q, hq => by obtain ⟨-, rfl⟩ := h; simp at hq
  | .obj ku kvs, a, F, h, q, hq => by
    obtain ⟨p, F', rfl, h5, rfl, hd, -, hm⟩ := h
    intro r hs
    rcases List.mem_cons.1 hq with rfl | hq
    · cases hs with
      | member _ hk => exact (repL_mem (repM_iff.1 hm).2 (List.mem_map_of_mem (f := Prod.snd) hk)).imp id (List.mem_cons_of_mem _)
      | element he _ => rw [hd] at he; cases he
    · exact (repM_closed hm q hq r hs).imp id (List.mem_cons_of_mem _)
  | .arr xs, a, F, h, q, hq => by
    obtain ⟨p, F', rfl, h5, rfl, hd, hm⟩ := h
    intro r hs
    rcases List.mem_cons.1 hq with rfl | hq
    · cases hs with
      | member he _ => rw [hd] at he; cases he
      | element _ hk => exact (repL_mem hm hk).imp id (List.mem_cons_of_mem _)
    · exact (repL_closed hm q hq r hs).imp id (List.mem_cons_of_mem _)
  | .str _, _, _, h, q, hq | .raw _, _, _, h, q, hq | .int _ _, _, _, h, q, hq | .float _, _, _, h, q, hq
  | .double _, _, _, h, q, hq | .dateTime _, _, _, h, q, hq | .bin _ _, _, _, h, q, hq | .exbin _ _, _, _, h, q, hq
  | .null, _, _, h, q, hq | .tru, _, _, h, q, hq | .fls, _, _, h, q, hq | .nan, _, _, h, q, hq | .inf, _, _, h, q, hq => by
    intro r hs
    obtain ⟨p, -, rfl, hl⟩ := h
    unfold foot at hq; split at hq
    · simp at hq
    · simp at hq; subst hq
      have hd := (leafOf_isLeaf hl).2
      rw [view_dt] at hd
      cases hs with
      | member he _ => rw [he] at hd; cases hd
      | element he _ => rw [he] at hd; cases hd
theorem repL_closed {m : Ptr → Node} : ∀ {xs : List Val} {ps : List (Option Ptr)} {F : List Ptr}, RepL m xs ps F → ∀ q ∈ F, ∀ r, Stored m q r → r < 5 ∨ r ∈ F
  | [], _, _, h, q, hq => by obtain ⟨-, rfl⟩ := h; simp at hq
  | x :: xs, _, _, h, q, hq => by
    obtain ⟨_, _, F1, F2, rfl, rfl, h1, h2⟩ := h
    intro r hs
    rcases List.mem_append.1 hq with hq | hq
    · exact (rep_closed h1 q hq r hs).imp id (List.mem_append_left _)
    · exact (repL_closed h2 q hq r hs).imp id (List.mem_append_right _)
theorem repM_closed {m : Ptr → Node} : ∀ {xs : List (Bytes × Val)} {ps : List (Bytes × Option Ptr)} {F : List Ptr}, RepM m xs ps F → ∀ q ∈ F, ∀ r, Stored m q r → r < 5 ∨ r ∈ F
  | [], _, _, h, q, hq => by obtain ⟨-, rfl⟩ := h; simp at hq
  | x :: xs, _, _, h, q, hq => by
    obtain ⟨_, _, F1, F2, rfl, rfl, h1, h2⟩ := h
    intro r hs
    rcases List.mem_append.1 hq with hq | hq
    · exact (rep_closed h1 q hq r hs).imp id (List.mem_append_left _)
    · exact (repM_closed h2 q hq r hs).imp id (List.mem_append_right _)
end

theorem const_not_stored {h : Heap} (I : Inv h) {p q : Ptr} (hp : p < 5) (hs : Stored h.mem p q) : False := by
  have hd := I.const p hp
  have : p = 0 ∨ p = 1 ∨ p = 2 ∨ p = 3 ∨ p = 4 := by omega
  cases hs with
  | member he _ => rw [he] at hd; rcases this with rfl | rfl | rfl | rfl | rfl <;> simp [constVT, nullP, trueP, falseP, nanP] at hd
  | element he _ => rw [he] at hd; rcases this with rfl | rfl | rfl | rfl | rfl <;> simp [constVT, nullP, trueP, falseP, nanP] at hd

theorem Sound.reach {s : St} {L : Nat → Option Live} (S : Sound s L) {i : Nat} {p q : Ptr} (hp : s.var i = some p) (hr : Reach s.heap.mem p q) :
    q < 5 ∨ ∃ x, L i = some x ∧ q ∈ x.F := by
  induction hr with
  | here =>
    rcases S.vsome i p hp with ⟨h5, -⟩ | ⟨x, hx, rfl⟩
    · exact Or.inl h5
    · obtain ⟨v, g⟩ := (S.world.held i x hx).good
      exact Or.inr ⟨x, hx, rep_mem g.rep (S.world.held i x hx).ge⟩
  | step _ hs ih =>
    rcases ih with h5 | ⟨x, hx, hq⟩
    · exact (const_not_stored S.world.inv h5 hs).elim
    · obtain ⟨v, g⟩ := (S.world.held i x hx).good
      exact (rep_closed g.rep _ hq _ hs).imp id (fun h => ⟨x, hx, h⟩)

/-! ## C43 -/

/-- Two values in use have no node in common, except shared constants, after every program: creations with and without
cache (whatever the pool returns), all operations on all their nodes, moving values into each other, clearing and freeing
values, copying (`Clone`, `CopyFrom`, `AddFrom`), parsing MessagePack, JSON and BSON documents, also wrong ones, into new and
existing values, YAML documents without `*`, `ForcePath`, Go data (`SetValue`, `SetKeyvalue`, `SetIndexvalue`, `NewValueFrom`), `MergeWith` of objects and arrays
(`mergeable`). Missing: YAML with `*` (aliases may share nodes within the value), copies and merges of values with nodes of their
own of type True, False, NAN or INF, merges that reach a shared constant or put an object into an array, merge functions that look at the values, and
loading into an inner node that has a cache of its own. -/
theorem C43_disjoint_partial (E : Env) (grow : Nat → Nat) (prog : List PCmd) (s : St) (e : pexecAll E (St.init grow) prog = .ok s)
    (i j : Nat) (hij : i ≠ j) (p p' q : Ptr) (hi : s.var i = some p) (hj : s.var j = some p')
    (h1 : Reach s.heap.mem p q) (h2 : Reach s.heap.mem p' q) : q < 5 := by
  obtain ⟨L, S⟩ := (Sound.init grow).pexecAll e
  rcases S.reach hi h1 with h | ⟨x, hx, hq⟩
  · exact h
  · rcases S.reach hj h2 with h | ⟨y, hy, hq'⟩
    · exact h
    · exact absurd hq' ((S.world.apart i j x y hij hx hy).nodes q hq)

/-- A statement does not change the nodes of the values it does not mention. -/
theorem C43_isolated_partial (E : Env) (grow : Nat → Nat) (prog : List PCmd) (s : St) (e : pexecAll E (St.init grow) prog = .ok s)
    (c : PCmd) (s' : St) (ec : c.exec E s = .ok s') (k : Nat) (hk : k ∉ c.vars) (p : Ptr) (hp : s.var k = some p) :
    s'.var k = some p ∧ ∀ q, Reach s.heap.mem p q → 5 ≤ q → s'.heap.mem q = s.heap.mem q := by
  obtain ⟨L, S⟩ := (Sound.init grow).pexecAll e
  obtain ⟨L', -, hkeep⟩ := S.pexec E c ec
  have kp := hkeep k hk
  refine ⟨kp.var.trans hp, fun q hr h5 => ?_⟩
  rcases S.reach hp hr with h | ⟨x, hx, hq⟩
  · omega
  · exact kp.mem x hx q hq

/-- The values in use stay trees: no node is reached along two ways, none contains itself. -/
theorem C43_trees_partial (E : Env) (grow : Nat → Nat) (prog : List PCmd) (s : St) (e : pexecAll E (St.init grow) prog = .ok s)
    (i : Nat) (p : Ptr) (hp : s.var i = some p) : ∃ v F, Rep s.heap.mem v (some p) F ∧ F.Nodup := by
  obtain ⟨L, S⟩ := (Sound.init grow).pexecAll e
  rcases S.vsome i p hp with ⟨h5, -⟩ | ⟨x, hx, rfl⟩
  · obtain ⟨w, g⟩ := const_tree S.world.inv h5
    exact ⟨w, [], g.rep, g.nodup⟩
  · obtain ⟨v, g⟩ := (S.world.held i x hx).good
    exact ⟨v, x.F, g.rep, g.nodup⟩

/-- A program: two cached objects, ten members in the first (so its cache grows), the first is freed, a third takes over
its cache, the second is moved into the third. -/
def cacheProg : List Cmd :=
  [.newCached 0 .object none, .newCached 1 .array none] ++ (List.range 10).map (fun n => .act 0 [] (.setKeyInt [97, UInt8.ofNat (48 + n)] 7)) ++
  [.act 1 [] (.setIndexString 0 [120]), .free 0 1, .newCached 2 .object (some 0), .act 2 [] (.setKeyInt [98] 1), .newValue 3 .true,
   .newCached 4 .object (some 0), .putKey 2 [] [99] 1]

/-- It runs, the third object took the cache of the first (its nodes are the copies made when the cache grew), and the
pool is empty. -/
example : (execAll envEx (St.init id) cacheProg).bind (fun s => .ok ([s.var 0, s.var 1, s.var 2, s.var 3, s.var 4], s.heap.pool,
    (s.heap.mem 40).kvs)) = .ok ([none, none, some 40, some trueP, some 51], [], [([98], some 41), ([99], some 13)]) := by decide

/-- The first object and the third have pointers to different addresses, though they use the same cache. -/
example : (execAll envEx (St.init id) (cacheProg.take 2)).bind (fun s => .ok [s.var 0, s.var 1]) = .ok [some 5, some 13] := by decide

/-- A program that parses: a cached object from `{"a":[1,true]}` (JSON), one from MessagePack, a JSON document that fails, the first is freed, a
BSON document takes its cache, the MessagePack value is loaded again from a document that ends too early. -/
def parseProg : List PCmd :=
  [.newJson 0 [123, 34, 97, 34, 58, 91, 49, 44, 116, 114, 117, 101, 93, 125] true none (fun _ => []), .newMsgPack 1 [0x82, 0xa1, 97, 0x92, 1, 0xc3, 0xa1, 98, 0xa1, 99] true none,
   .newJson 2 [123, 34, 97, 34, 58] true none (fun _ => [([120], some 5)]), .cmd (.free 0 1), .newBson 3 [] [9, 0, 0, 0, 8, 97, 0, 1, 0] true (some 0),
   .loadMsgPack 1 [] [0x82, 0xa1, 97, 1]]

/-- It runs; the failed document gives nil, the BSON value has the node of the freed one, the MessagePack value keeps the members read before the error. -/
example : (pexecAll envEx (St.init id) parseProg).bind (fun s => .ok ([s.var 0, s.var 1, s.var 2, s.var 3],
    ((s.var 1).map fun p => (s.heap.mem p).kvs.map (·.1)), ((s.var 3).map fun p => (s.heap.mem p).kvs.map (·.1)))) =
    .ok ([none, some 13, none, some 5], some [[97]], some [[97]]) := by decide +kernel

/-- A program with `ForcePath` and Go data: a cached value from `[]interface{}{1, true}`, and a path through it: the element 1, `true`, becomes an
object. -/
def goProg : List PCmd :=
  [.newFrom 0 (.slice [.sc (.int 1), .sc (.bool true)]) true none, .forcePath 0 [] .string [[49], [98]]]

/-- It runs; the constant `true` is still `true`, the path is there. -/
example : (pexecAll envEx (St.init id) goProg).bind (fun s => do
    let a ← s.walk 0 [1]
    .ok ((s.heap.mem trueP).dt, (s.heap.mem a).kvs.map (·.1))) = .ok (.true, [[98]]) := by decide +kernel

/-- A program with Go data: a value from a struct, then a member `[]string{"x"}`. -/
def goProg2 : List PCmd :=
  [.newFrom 1 (.struct [([107], .sc (.f64 0)), ([108], .bytes [1, 2])]) false none, .setKeyvalue 1 [] [109] (.slice [.sc (.str [120])]) true]

example : (pexecAll envEx (St.init id) goProg2).bind (fun s => do
    let b ← s.walk 1 [2, 0]
    let c ← s.walk 1 []
    .ok ((s.heap.mem b).str, (s.heap.mem c).kvs.map (·.1))) = .ok ([120], [[107], [108], [109]]) := by decide +kernel

/-- A program with YAML: `a:\n  b: 1\n: c` fails in the third line; `a:\n  - x` and `k: v` are parsed. -/
def yamlProg : List PCmd :=
  [.newYaml 0 [97, 58, 10, 32, 32, 98, 58, 32, 49, 10, 58, 32, 99] true (fun _ => none) Yaml.Parser.fresh,
   .newYaml 1 [97, 58, 10, 32, 32, 45, 32, 120] true (fun _ => none) Yaml.Parser.fresh,
   .newYaml 2 [107, 58, 32, 118] false (fun _ => none) Yaml.Parser.fresh]

example : (pexecAll envEx (St.init id) yamlProg).bind (fun s => do
    let a ← s.walk 1 [0, 0]
    let b ← s.walk 2 [0]
    .ok (s.var 0, (s.heap.mem a).str, (s.heap.mem b).str)) = .ok (none, [120], [118]) := by decide +kernel

/-- `- true` is loaded into a value made by the parser. -/
example : (pexecAll envEx (St.init id) [.newYaml 1 [97, 58, 10, 32, 32, 45, 32, 120] true (fun _ => none) Yaml.Parser.fresh,
    .loadYaml 1 [] [45, 32, 116, 114, 117, 101] (fun _ => none) Yaml.Parser.fresh]).bind (fun s => do
    let a ← s.walk 1 [0]
    .ok (s.heap.mem a).dt) = .ok .true := by decide +kernel

/-- A program that merges `{"a":{"b":1},"c":"x"}` and `{"c":"y","a":{"d":2}}`, and then frees the second. -/
def mergeProg : List PCmd :=
  [.newJson 0 [123, 34, 97, 34, 58, 123, 34, 98, 34, 58, 49, 125, 44, 34, 99, 34, 58, 34, 120, 34, 125] true none (fun _ => []),
   .newJson 1 [123, 34, 99, 34, 58, 34, 121, 34, 44, 34, 97, 34, 58, 123, 34, 100, 34, 58, 50, 125, 125] true none (fun _ => []),
   .merge 0 [] 1 [] none 20, .cmd (.free 1 0)]

/-- `c` has become the list of both, `a` has `b` and `d`. -/
example : (pexecAll envEx (St.init id) mergeProg).bind (fun s => do
    let a ← s.walk 0 [0]
    let y ← s.walk 0 [1, 1]
    .ok ((s.heap.mem a).kvs.map (·.1), (s.heap.mem y).str)) = .ok ([[98], [100]], [121]) := by decide +kernel

/-! ## C44 -/

/-- Freeing a value several times is freeing it once. -/
theorem C44_twice (h : Heap) (p : Ptr) (n : Nat) : freeN h p (n + 1) = freeValue h (some p) := freeN_eq h p n

/-- Its cache is put into the pool once. -/
theorem C44_pool (h : Heap) (p : Ptr) (n : Nat) :
    (freeN h p (n + 1)).pool = (match (h.mem p).owner with | some c => [c] | none => []) ++ h.pool := by
  rw [freeN_eq]
  unfold freeValue Heap.clear
  cases ho : (h.mem p).owner with
  | none => simp [Node.clear_owner, ho]
  | some c =>
    simp [Node.clear_owner, ho, cacheReset, Heap.setC]

/-- No cache is in the pool twice, and none that a value in use owns, after every program.
Missing: histories that are no programs, for which it is false, see `C44_reuse_counterexample`, and the statements programs leave out (see C43). -/
theorem C44_once_partial (E : Env) (grow : Nat → Nat) (prog : List PCmd) (s : St) (e : pexecAll E (St.init grow) prog = .ok s) :
    s.heap.pool.Nodup ∧ ∀ i p q c, s.var i = some p → Reach s.heap.mem p q → 5 ≤ q → (s.heap.mem q).owner = some c → c ∉ s.heap.pool := by
  obtain ⟨L, S⟩ := (Sound.init grow).pexecAll e
  refine ⟨S.world.nodup, fun i p q c hp hr h5 ho => ?_⟩
  rcases S.reach hp hr with h | ⟨x, hx, hq⟩
  · omega
  · have a := S.world.held i x hx
    exact (a.caches c (a.owner q hq c ho)).2

/-- The pool of the example before the last steps. -/
example : (execAll envEx (St.init id) (cacheProg.take 14)).bind (fun s => .ok s.heap.pool) = .ok [0] := by decide

/-- "As long as nothing was allocated in between" is needed: a stale pointer can free the value that took over the node,
and then two values in use share it. -/
theorem C44_reuse_counterexample :
    let r1 := newCacheValue (Heap.init id) .object none
    let h2 := freeValue r1.2 (some r1.1)
    let r3 := newCacheValue h2 .object (some 0)
    let h4 := freeValue r3.2 (some r1.1)
    let r5 := newCacheValue h4 .object (some 0)
    r3.1 = r1.1 ∧ r5.1 = r3.1 := by decide

end Dxs.Heap
