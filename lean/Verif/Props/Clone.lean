import Verif.Props.Cache
import Verif.Heap.Self

/-!
# C37: Clone; C69: CopyFrom; C70, C103: AddFrom
-/

namespace Dxs.Heap

/-! ## The specification -/

mutual
/-- Trees without nil, without binaries and without extension codes. -/
def Ordinary : Val → Prop
  | .nil => False
  | .obj _ kvs => OrdinaryM kvs
  | .arr xs => OrdinaryL xs
  | .int e _ => e = 0
  | .bin _ _ => False
  | .exbin _ _ => False
  | _ => True
/-- The members. -/
def OrdinaryM : List (Bytes × Val) → Prop
  | [] => True
  | (_, v) :: kvs => Ordinary v ∧ OrdinaryM kvs
/-- The elements. -/
def OrdinaryL : List Val → Prop
  | [] => True
  | v :: vs => Ordinary v ∧ OrdinaryL vs
end

mutual
theorem Ordinary.same : ∀ {v : Val}, Ordinary v → cloneVal v = v ∧ noNil v = true
  | .nil, h => h.elim
  | .obj ku kvs, h => by obtain ⟨h1, h2⟩ := OrdinaryM.same h; exact ⟨by rw [cloneVal, h1], h2⟩
  | .arr xs, h => by obtain ⟨h1, h2⟩ := OrdinaryL.same h; exact ⟨by rw [cloneVal, h1], h2⟩
  | .int e c, h => by simp only [Ordinary] at h; subst h; exact ⟨rfl, rfl⟩
  | .bin _ _, h => h.elim
  | .exbin _ _, h => h.elim
  | .str _, _ | .raw _, _ | .float _, _ | .double _, _ | .dateTime _, _ | .null, _ | .tru, _ | .fls, _ | .nan, _ | .inf, _ => ⟨rfl, rfl⟩
theorem OrdinaryM.same : ∀ {kvs : List (Bytes × Val)}, OrdinaryM kvs → cloneVals kvs = kvs ∧ noNilM kvs = true
  | [], _ => ⟨rfl, rfl⟩
  | (k, v) :: kvs, ⟨h1, h2⟩ => by
    obtain ⟨a, b⟩ := Ordinary.same h1
    obtain ⟨c, d⟩ := OrdinaryM.same h2
    exact ⟨by rw [cloneVals, a, c], by simp [noNilM, b, d]⟩
theorem OrdinaryL.same : ∀ {xs : List Val}, OrdinaryL xs → cloneValL xs = xs ∧ noNilL xs = true
  | [], _ => ⟨rfl, rfl⟩
  | v :: xs, ⟨h1, h2⟩ => by
    obtain ⟨a, b⟩ := Ordinary.same h1
    obtain ⟨c, d⟩ := OrdinaryL.same h2
    exact ⟨by rw [cloneValL, a, c], by simp [noNilL, b, d]⟩
end

/-! ## C37 -/

/-- Every node except the shared constants is copied: `p` has no node of its own of type True, False, NAN or INF. -/
def Owns (h : Heap) (p : Ptr) : Prop := ∀ q, Reach h.mem p q → 5 ≤ q → (h.mem q).dt.ord < 11

mutual
/-- Every node of the tree is reached. -/
theorem rep_reach {m : Ptr → Node} {p : Ptr} : ∀ {v : Val} {a : Option Ptr} {F : List Ptr}, Rep m v a F → (∀ q, a = some q → Reach m p q) → ∀ q ∈ F, Reach m p q
  | .nil, a, F, h, _, q, hq => by obtain ⟨-, rfl⟩ := h; cases hq
  | .obj ku kvs, a, F, h, ha, q, hq => by
    obtain ⟨p', F', rfl, h5, rfl, hd, -, hm⟩ := h
    have hp := ha p' rfl
    rcases List.mem_cons.1 hq with rfl | hq
    · exact hp
    · exact repM_reach hm (fun k q hk => hp.step (.member hd hk)) q hq
  | .arr xs, a, F, h, ha, q, hq => by
    obtain ⟨p', F', rfl, h5, rfl, hd, hm⟩ := h
    have hp := ha p' rfl
    rcases List.mem_cons.1 hq with rfl | hq
    · exact hp
    · exact repL_reach hm (fun q hk => hp.step (.element hd hk)) q hq
  | .str _, _, _, h, ha, q, hq | .raw _, _, _, h, ha, q, hq | .int _ _, _, _, h, ha, q, hq | .float _, _, _, h, ha, q, hq
  | .double _, _, _, h, ha, q, hq | .dateTime _, _, _, h, ha, q, hq | .bin _ _, _, _, h, ha, q, hq | .exbin _ _, _, _, h, ha, q, hq
  | .null, _, _, h, ha, q, hq | .tru, _, _, h, ha, q, hq | .fls, _, _, h, ha, q, hq | .nan, _, _, h, ha, q, hq | .inf, _, _, h, ha, q, hq => by
    obtain ⟨p', rfl, rfl, hl⟩ := h
    unfold foot at hq; split at hq
    · cases hq
    · simp at hq; subst hq; exact ha _ rfl
theorem repL_reach {m : Ptr → Node} {p : Ptr} : ∀ {xs : List Val} {ps : List (Option Ptr)} {F : List Ptr}, RepL m xs ps F → (∀ q, some q ∈ ps → Reach m p q) → ∀ q ∈ F, Reach m p q
  | [], _, _, h, _, q, hq => by obtain ⟨-, rfl⟩ := h; cases hq
  | x :: xs, _, _, h, ha, q, hq => by
    obtain ⟨_, _, F1, F2, rfl, rfl, h1, h2⟩ := h
    rcases List.mem_append.1 hq with hq | hq
    · exact rep_reach h1 (fun q e => ha q (by simp [e])) q hq
    · exact repL_reach h2 (fun q e => ha q (by simp [e])) q hq
theorem repM_reach {m : Ptr → Node} {p : Ptr} : ∀ {xs : List (Bytes × Val)} {ps : List (Bytes × Option Ptr)} {F : List Ptr}, RepM m xs ps F →
    (∀ k q, (k, some q) ∈ ps → Reach m p q) → ∀ q ∈ F, Reach m p q
  | [], _, _, h, _, q, hq => by obtain ⟨-, rfl⟩ := h; cases hq
  | x :: xs, _, _, h, ha, q, hq => by
    obtain ⟨_, _, F1, F2, rfl, rfl, h1, h2⟩ := h
    rcases List.mem_append.1 hq with hq | hq
    · exact rep_reach h1 (fun q e => ha x.1 q (by simp [e])) q hq
    · exact repM_reach h2 (fun k q e => ha k q (by simp [e])) q hq
end

/-- The nodes reached from the root of a tree are its nodes and constants. -/
theorem Good.reach {h : Heap} {p : Ptr} {v : Val} {F : List Ptr} (g : Good h (some p) v F) {q : Ptr} (hr : Reach h.mem p q) : q < 5 ∨ q ∈ F := by
  induction hr with
  | here =>
    rcases Nat.lt_or_ge p 5 with h5 | h5
    · exact Or.inl h5
    · exact Or.inr (rep_mem g.rep h5)
  | step _ hs ih =>
    rcases ih with h5 | hq
    · exact (const_not_stored g.inv h5 hs).elim
    · exact rep_closed g.rep _ hq _ hs

theorem Owns.copyable {h : Heap} {p : Ptr} {v : Val} {F : List Ptr} (o : Owns h p) (g : Good h (some p) v F) : Copyable h F :=
  fun q hq => o q (rep_reach g.rep (fun r e => by cases e; exact .here) q hq) (rep_ge g.rep q hq)

/-- The general form: what `Clone` makes, and when it panics. -/
theorem cloneTop_ok {h : Heap} {p : Ptr} {v : Val} {F : List Ptr} (g : Good h (some p) v F) (ho : Owns h p) (cached : Bool) (pick : Option Nat) (f : Nat) (hf : height v ≤ f)
    (hv : noNil v = true) : ∃ r h' F', cloneTop f h p cached pick = .ok (r, h') ∧ Good h' (some r) (cloneVal v) F' ∧ Good h' (some p) v F ∧ (∀ q ∈ F', q ∉ F) ∧ ∀ q ∈ F, h'.mem q = h.mem q := by
  have fin : ∀ {h1 : Heap} {c : Option CId}, Good h1 (some p) v F → (∀ d, c = some d → d < h1.nextC) → (∀ q ∈ F, h1.mem q = h.mem q) →
      ∃ r h' F', clone f h1 (some p) c = .ok (r, h') ∧ Good h' (some r) (cloneVal v) F' ∧ Good h' (some p) v F ∧ (∀ q ∈ F', q ∉ F) ∧ ∀ q ∈ F, h'.mem q = h.mem q := by
    intro h1 c g1 hc hk
    have ok := g1.clone f c hc (fun q hq => by rw [hk q hq]; exact ho.copyable g q hq)
    generalize clone f h1 (some p) c = res at ok
    match res with
    | .err e => exact ok.elim
    | .panic => simp only [CloneOk] at ok; rw [hv] at ok; cases ok
    | .loop => simp only [CloneOk] at ok; omega
    | .ok (r, h') =>
      obtain ⟨-, F', M⟩ := ok
      exact ⟨r, h', F', rfl, M.good, g1.frame M.frame (by simp), fun q hq hF => g1.live q hF (M.fresh q hq), fun q hq => by
        rw [M.frame.mem q (rep_ge g1.rep q hq) (by simp) (g1.live q hq), hk q hq]⟩
  unfold cloneTop
  cases cached with
  | false => exact fin g (by simp) (fun _ _ => rfl)
  | true =>
    obtain ⟨g1, hlt, hk⟩ := g.cached pick
    exact fin g1 (by intro d hd; cases hd; exact hlt) hk

/-- `Clone` of a tree of any depth, with and without cache, succeeds; the result represents the same tree; it has no node
in common with the original, and no node of the original was changed. Missing: trees with nil, binaries or extension
codes, and nodes of the types True, False, NAN, INF that are not the shared constants. -/
theorem C37_same_tree_partial (h : Heap) (p : Ptr) (v : Val) (F : List Ptr) (g : Good h (some p) v F) (hv : Ordinary v) (ho : Owns h p)
    (cached : Bool) (pick : Option Nat) (f : Nat) (hf : height v ≤ f) :
    ∃ r h', cloneTop f h p cached pick = .ok (r, h') ∧ (∃ F', Rep h'.mem v (some r) F') ∧ Rep h'.mem v (some p) F ∧
      (∀ q, Reach h'.mem p q → Reach h'.mem r q → q < 5) ∧ ∀ q, Reach h.mem p q → 5 ≤ q → h'.mem q = h.mem q := by
  obtain ⟨e1, e2⟩ := hv.same
  obtain ⟨r, h', F', e, g', gp, hd, hk⟩ := cloneTop_ok g ho cached pick f hf e2
  rw [e1] at g'
  refine ⟨r, h', e, ⟨F', g'.rep⟩, gp.rep, fun q h1 h2 => ?_, fun q h1 h5 => ?_⟩
  · rcases gp.reach h1 with h | h
    · exact h
    · rcases g'.reach h2 with h' | h'
      · exact h'
      · exact absurd h (hd q h')
  · rcases g.reach h1 with h | h
    · omega
    · exact hk q h

/-- In a program: a clone (of any node of any value) and all other values stay independent. Whatever the program does
afterwards with the other values, the value `k` (the clone, the original, or another one) keeps all its nodes. Missing:
sources with nodes of their own of the types True, False, NAN, INF, values from YAML with `*`, and merges left out in C43. -/
theorem C37_independent_partial (E : Env) (grow : Nat → Nat) (prog : List PCmd) (s : St) (e : pexecAll E (St.init grow) prog = .ok s)
    (i j : Nat) (π : List Nat) (cached : Bool) (pick : Option Nat) (f : Nat) (s1 : St) (ec : (Cmd.clone i j π cached pick f).exec E s = .ok s1)
    (prog' : List PCmd) (s2 : St) (e2 : pexecAll E s1 prog' = .ok s2) (k : Nat) (hk : ∀ c ∈ prog', k ∉ c.vars) (p : Ptr) (hp : s1.var k = some p) :
    s2.var k = some p ∧ ∀ q, Reach s1.heap.mem p q → 5 ≤ q → s2.heap.mem q = s1.heap.mem q := by
  obtain ⟨L, S⟩ := (Sound.init grow).pexecAll e
  obtain ⟨L1, S1, -⟩ := S.exec E _ ec
  obtain ⟨L2, S2, kp⟩ := S1.pkeepsAll k hk e2
  refine ⟨kp.var.trans hp, fun q hr h5 => ?_⟩
  rcases S1.reach hp hr with h | ⟨x, hx, hq⟩
  · omega
  · exact kp.mem x hx q hq

/-- A program: an object `{"a": [1], "b": "x", "c": true}`, a cached clone of it, then changes to both. -/
def cloneProg : List Cmd :=
  [.newCached 0 .object none, .act 0 [] (.setKey [97] .array), .act 0 [0] (.setIndexInt 0 1), .act 0 [] (.setKeyString [98] [120]), .act 0 [] (.setKeyBool [99] true),
   .clone 1 0 [] true none 9, .act 0 [0] (.setIndexInt 0 2), .act 1 [1] (.setString [121]), .act 1 [] (.removeKey [97])]

/-- The original still has its three members and its string, the clone has lost one and got a new string. -/
example : (execAll envEx (St.init id) cloneProg).bind (fun s => .ok ((s.heap.mem 5).kvs, (s.heap.mem 7).str)) =
    .ok ([([97], some 6), ([98], some 7), ([99], some trueP)], [120]) := by decide
example : (execAll envEx (St.init id) cloneProg).bind (fun s => .ok ((s.heap.mem 21).kvs, (s.heap.mem 24).str)) =
    .ok ([([98], some 24), ([99], some trueP)], [121]) := by decide

/-- A tree for the first theorem: the hypotheses hold. -/
example : Ordinary (.obj true [([97], .arr [.int 0 1, .tru]), ([98], .str [120])]) := by simp [Ordinary, OrdinaryM, OrdinaryL]

/-- What `Clone` makes in general: the contents of binaries and the extension codes are lost. -/
theorem C37_clone_partial (h : Heap) (p : Ptr) (v : Val) (F : List Ptr) (g : Good h (some p) v F) (hv : noNil v = true) (ho : Owns h p)
    (cached : Bool) (pick : Option Nat) (f : Nat) (hf : height v ≤ f) :
    ∃ r h' F', cloneTop f h p cached pick = .ok (r, h') ∧ Rep h'.mem (cloneVal v) (some r) F' := by
  obtain ⟨r, h', F', e, g', -⟩ := cloneTop_ok g ho cached pick f hf hv
  exact ⟨r, h', F', e, g'.rep⟩

/-- The clone of every binary value is empty. -/
theorem C37_binary_counterexample (h : Heap) (p : Ptr) (e : UInt8) (b : Bytes) (F : List Ptr) (g : Good h (some p) (.bin e b) F) (cached : Bool) (pick : Option Nat) :
    ∃ r h' F', cloneTop 1 h p cached pick = .ok (r, h') ∧ Rep h'.mem (.bin 0 []) (some r) F' := by
  refine C37_clone_partial h p _ F g rfl ?_ cached pick 1 (by simp [height])
  intro q hr h5
  have hd := rep_dt g.rep
  simp only [Val.vt] at hd
  rcases g.reach hr with h | h
  · omega
  · obtain ⟨p', e, hf, -⟩ := g.rep
    cases e
    rw [hf] at h
    unfold foot at h
    split at h
    · cases h
    · simp only [List.mem_singleton] at h; subst h; rw [hd]; simp [VT.ord]

/-- A value with a nil member cannot be cloned: `v.SetKeyValue("a", nil); v.Clone(false)` panics. -/
theorem C37_nil_counterexample :
    let r := newObject (Heap.init id) false none
    let h := setKeyValue envEx r.2 r.1 [97] none
    (cloneTop 9 h r.1 false none).bind (fun s => .ok s.1) = .panic := by decide

/-- A value that `SetBool` made True is not copied: `v = NewValue(VT_Int); v.SetBool(true); w = v.Clone(false);
w.SetInt(7)` changes `v`. -/
theorem C37_alias_counterexample :
    let r := newValue (Heap.init id) .int
    let h := setBool r.2 r.1 true
    (cloneTop 9 h r.1 false none).bind (fun s => .ok (s.1, ((setInt s.2 s.1 7).mem r.1).dt, ((setInt s.2 s.1 7).mem r.1).cell)) = .ok (r.1, .int, 7) := by decide

/-! ## C69: CopyFrom -/

/-- After `v.CopyFrom(w, c)` the value `v` represents the tree of `w`, which is unchanged, and they have no node in
common. Missing: trees with nil, binaries or extension codes, nodes of their own of the types True, False, NAN, INF,
and copying within one tree. -/
theorem C69_copy_partial (h : Heap) (p s : Ptr) (v w : Val) (F G : List Ptr) (g : Good h (some p) v F) (h5 : 5 ≤ p) (gw : Good h (some s) w G)
    (hd : ∀ q, Reach h.mem p q → Reach h.mem s q → q < 5) (hw : Ordinary w) (ho : Owns h s) (c : Option CId) (hc : ∀ d, c = some d → d < h.nextC)
    (f : Nat) (hf : height w ≤ f) :
    ∃ h', copyFrom f h p (some s) c = .ok h' ∧ (∃ F', Rep h'.mem w (some p) F') ∧ Rep h'.mem w (some s) G ∧
      (∀ q, Reach h'.mem p q → Reach h'.mem s q → q < 5) ∧ ∀ q, Reach h.mem s q → 5 ≤ q → h'.mem q = h.mem q := by
  obtain ⟨e1, e2⟩ := hw.same
  have hdis : ∀ q ∈ G, q ∉ F := fun q hq hF => by
    have := hd q (rep_reach g.rep (fun r e => by cases e; exact .here) q hF) (rep_reach gw.rep (fun r e => by cases e; exact .here) q hq)
    have := rep_ge g.rep q hF
    omega
  have ok := copyFrom_spec g h5 gw hdis (ho.copyable gw) f c hc
  generalize copyFrom f h p (some s) c = res at ok
  match res with
  | .err e => exact ok.elim
  | .panic => simp only [CopyOk] at ok; rw [e2] at ok; cases ok
  | .loop => simp only [CopyOk] at ok; omega
  | .ok h' =>
    obtain ⟨-, F', u⟩ := ok
    rw [e1] at u
    have gs := gw.frame u.frame hdis
    refine ⟨h', rfl, ⟨F', u.good.rep⟩, gs.rep, fun q h1 h2 => ?_, fun q h1 h5 => ?_⟩
    · rcases u.good.reach h1 with h | h
      · exact h
      · rcases gs.reach h2 with h' | h'
        · exact h'
        · rcases u.sub q h with h | h | h
          · exact absurd h (hdis q h')
          · cases h
          · exact absurd h (gw.live q h')
    · rcases gw.reach h1 with h | h
      · omega
      · exact u.frame.mem q h5 (hdis q h) (gw.live q h)

/-- The contents of a binary are not copied. -/
theorem C69_binary_counterexample :
    let r := newValue (Heap.init id) .binary
    let h := setBinary r.2 r.1 [1, 2]
    let t := newValue h .int
    (copyFrom 9 t.2 t.1 (some r.1) none).bind (fun h => .ok ((h.mem t.1).dt, (h.mem t.1).bin, (h.mem r.1).bin)) = .ok (.binary, [], [1, 2]) := by decide

/-- A value copied from itself is emptied. -/
theorem C69_self_counterexample :
    let r := newValue (Heap.init id) .string
    let h := setString r.2 r.1 [97]
    (copyFrom 9 h r.1 (some r.1) none).bind (fun h => .ok (h.mem r.1).str) = .ok [] := by decide

/-! ## C70: AddFrom -/

/-- `v.AddFrom(w, c)` puts copies of the members of `w` behind those of `v`; the members of `v` stay the same nodes.
Missing: trees with nil, binaries or extension codes, own nodes of the types True, False, NAN, INF, and adding a part of
`v` to `v`. -/
theorem C70_members_partial (h : Heap) (p s : Ptr) (ku ku' : Bool) (kvs kvs' : List (Bytes × Val)) (F G : List Ptr)
    (g : Good h (some p) (.obj ku kvs) F) (gw : Good h (some s) (.obj ku' kvs') G)
    (hd : ∀ q, Reach h.mem p q → Reach h.mem s q → q < 5) (hw : Ordinary (.obj ku' kvs')) (ho : Owns h s) (c : Option CId) (hc : ∀ d, c = some d → d < h.nextC)
    (f : Nat) (hf : height (.obj ku' kvs') ≤ f) :
    ∃ h', addFrom f h p (some s) c = .ok h' ∧ (∃ F', Rep h'.mem (.obj ku' (kvs ++ kvs')) (some p) F') ∧
      ∀ q, Reach h.mem s q → 5 ≤ q → h'.mem q = h.mem q := by
  obtain ⟨e1, e2⟩ := hw.same
  have hdis : ∀ q ∈ G, q ∉ F := fun q hq hF => by
    have := hd q (rep_reach g.rep (fun r e => by cases e; exact .here) q hF) (rep_reach gw.rep (fun r e => by cases e; exact .here) q hq)
    have := rep_ge g.rep q hF
    omega
  have ok := addFrom_spec g gw hdis (ho.copyable gw) f c hc rfl
  generalize addFrom f h p (some s) c = res at ok
  match res with
  | .err e => exact ok.elim
  | .panic => simp only [CopyOk] at ok; rw [e2] at ok; cases ok
  | .loop => simp only [CopyOk] at ok; omega
  | .ok h' =>
    obtain ⟨-, F', u⟩ := ok
    rw [cloneVal, Val.obj.injEq] at e1
    rw [e1.2] at u
    refine ⟨h', rfl, ⟨F', u.good.rep⟩, fun q h1 h5 => ?_⟩
    rcases gw.reach h1 with h | h
    · omega
    · exact u.frame.mem q h5 (hdis q h) (gw.live q h)

/-- The same for arrays. -/
theorem C70_elements_partial (h : Heap) (p s : Ptr) (xs xs' : List Val) (F G : List Ptr)
    (g : Good h (some p) (.arr xs) F) (gw : Good h (some s) (.arr xs') G)
    (hd : ∀ q, Reach h.mem p q → Reach h.mem s q → q < 5) (hw : Ordinary (.arr xs')) (ho : Owns h s) (c : Option CId) (hc : ∀ d, c = some d → d < h.nextC)
    (f : Nat) (hf : height (.arr xs') ≤ f) :
    ∃ h', addFrom f h p (some s) c = .ok h' ∧ (∃ F', Rep h'.mem (.arr (xs ++ xs')) (some p) F') ∧
      ∀ q, Reach h.mem s q → 5 ≤ q → h'.mem q = h.mem q := by
  obtain ⟨e1, e2⟩ := hw.same
  have hdis : ∀ q ∈ G, q ∉ F := fun q hq hF => by
    have := hd q (rep_reach g.rep (fun r e => by cases e; exact .here) q hF) (rep_reach gw.rep (fun r e => by cases e; exact .here) q hq)
    have := rep_ge g.rep q hF
    omega
  have ok := addFrom_spec g gw hdis (ho.copyable gw) f c hc rfl
  generalize addFrom f h p (some s) c = res at ok
  match res with
  | .err e => exact ok.elim
  | .panic => simp only [CopyOk] at ok; rw [e2] at ok; cases ok
  | .loop => simp only [CopyOk] at ok; omega
  | .ok h' =>
    obtain ⟨-, F', u⟩ := ok
    rw [cloneVal, Val.arr.injEq] at e1
    rw [e1] at u
    refine ⟨h', rfl, ⟨F', u.good.rep⟩, fun q h1 h5 => ?_⟩
    rcases gw.reach h1 with h | h
    · omega
    · exact u.frame.mem q h5 (hdis q h) (gw.live q h)

/-- The old names of `v` are taken for escaped names afterwards if those of `w` are: with a member named `\\n` (backslash
and n), after adding an object nothing was looked up in (here an empty one) the member is not found under its name. -/
theorem C70_names_counterexample :
    let r := newObject (Heap.init id) false none
    (setKeyInt envEx r.2 r.1 [92, 110] 7).bind (fun h =>
      let t := newObject h false none
      (addFrom 9 t.2 r.1 (some t.1) none).bind (fun h' => .ok ((valueByName envEx h r.1 [92, 110]).1.isSome, (valueByName envEx h' r.1 [92, 110]).1.isSome)))
    = .ok (true, false) := by decide

/-! ## C103: AddFrom and CopyFrom come back -/

/-- The values under a value are all strings, integers or doubles. -/
def PlainMembers (kvs : List (Bytes × Val)) : Prop := ∀ kv ∈ kvs, (∃ s, kv.2 = .str s) ∨ (∃ e n, kv.2 = .int e n) ∨ ∃ x, kv.2 = .double x

/-- With enough fuel `v.AddFrom(w, c)` gives a result, and it panics exactly if there is a nil in `w`, for two objects or two arrays without
common parts, all types. Missing: values with common parts. -/
theorem C103_addFrom_partial (h : Heap) (p s : Ptr) (v w v' : Val) (F G : List Ptr) (g : Good h (some p) v F) (gw : Good h (some s) w G)
    (hd : ∀ q, Reach h.mem p q → Reach h.mem s q → q < 5) (ho : Owns h s) (hv : addVal v w = some v') (c : Option CId) (hc : ∀ d, c = some d → d < h.nextC)
    (f : Nat) (hf : height w ≤ f) : addFrom f h p (some s) c ≠ .loop ∧ (addFrom f h p (some s) c = .panic ↔ noNil w = false) := by
  have hdis : ∀ q ∈ G, q ∉ F := fun q hq hF => by
    have := hd q (rep_reach g.rep (fun r e => by cases e; exact .here) q hF) (rep_reach gw.rep (fun r e => by cases e; exact .here) q hq)
    have := rep_ge g.rep q hF
    omega
  have ok := addFrom_spec g gw hdis (ho.copyable gw) f c hc hv
  generalize addFrom f h p (some s) c = res at ok
  match res with
  | .err e => exact ok.elim
  | .panic => exact ⟨by simp, ⟨fun _ => ok, fun _ => rfl⟩⟩
  | .loop => simp only [CopyOk] at ok; omega
  | .ok h' => exact ⟨by simp, by simp [ok.1]⟩

/-- The same for `v.CopyFrom(w, c)`. -/
theorem C103_copyFrom_partial (h : Heap) (p s : Ptr) (v w : Val) (F G : List Ptr) (g : Good h (some p) v F) (h5 : 5 ≤ p) (gw : Good h (some s) w G)
    (hd : ∀ q, Reach h.mem p q → Reach h.mem s q → q < 5) (ho : Owns h s) (c : Option CId) (hc : ∀ d, c = some d → d < h.nextC)
    (f : Nat) (hf : height w ≤ f) : copyFrom f h p (some s) c ≠ .loop ∧ (copyFrom f h p (some s) c = .panic ↔ noNil w = false) := by
  have hdis : ∀ q ∈ G, q ∉ F := fun q hq hF => by
    have := hd q (rep_reach g.rep (fun r e => by cases e; exact .here) q hF) (rep_reach gw.rep (fun r e => by cases e; exact .here) q hq)
    have := rep_ge g.rep q hF
    omega
  have ok := copyFrom_spec g h5 gw hdis (ho.copyable gw) f c hc
  generalize copyFrom f h p (some s) c = res at ok
  match res with
  | .err e => exact ok.elim
  | .panic => exact ⟨by simp, ⟨fun _ => ok, fun _ => rfl⟩⟩
  | .loop => simp only [CopyOk] at ok; omega
  | .ok h' => exact ⟨by simp, by simp [ok.1]⟩

/-- `v.AddFrom(v, c)` never comes back, for every object of strings and numbers that is not empty. -/
theorem C103_self_loops (h : Heap) (p : Ptr) (ku : Bool) (kvs : List (Bytes × Val)) (F : List Ptr) (g : Good h (some p) (.obj ku kvs) F) (hk : kvs ≠ [])
    (hp : PlainMembers kvs) (c : Option CId) (hc : ∀ d, c = some d → d < h.nextC) (f : Nat) : addFrom f h p (some p) c = .loop := by
  obtain ⟨F0, rfl, h5, hdt, hku, hm, hp0, hn, hav⟩ := g.obj_inv
  have key : ∀ (kvs : List (Bytes × Val)) (ps : List (Bytes × Option Ptr)) (G : List Ptr), RepM h.mem kvs ps G → PlainMembers kvs →
      ∀ kv ∈ ps, ∃ q, kv.2 = some q ∧ q ∈ G ∧ ((h.mem q).dt = .string ∨ (h.mem q).dt = .int ∨ (h.mem q).dt = .double) := by
    intro kvs
    induction kvs with
    | nil => rintro ps G ⟨rfl, -⟩ - kv hkv; cases hkv
    | cons x xs ih =>
      rintro ps G ⟨q, qs, F1, F2, rfl, rfl, h1, h2⟩ hp kv hkv
      simp only [List.mem_cons] at hkv
      rcases hkv with rfl | hkv
      · have hx := hp x (by simp)
        have hvt : x.2.vt = .string ∨ x.2.vt = .int ∨ x.2.vt = .double := by
          rcases hx with ⟨s, e⟩ | ⟨a, b, e⟩ | ⟨b, e⟩ <;> rw [e] <;> simp [Val.vt]
        rcases rep_cases h1 with ⟨e, -⟩ | ⟨r, F', rfl, -, rfl, hd, -⟩ | ⟨r, -, rfl, rfl, -, hd⟩
        · rcases hx with ⟨s, e2⟩ | ⟨a, b, e2⟩ | ⟨b, e2⟩ <;> rw [e] at e2 <;> cases e2
        · exact ⟨r, rfl, by simp, hd ▸ hvt⟩
        · have := leaf_ge g.inv hd (by grind) (by grind) (by grind) (by grind) (by grind)
          exact ⟨r, rfl, by simp [foot]; omega, hd ▸ hvt⟩
      · obtain ⟨r, e, hr, ht⟩ := ih qs F2 h2 (fun kv h => hp kv (by simp [h])) kv hkv
        exact ⟨r, e, by simp [hr], ht⟩
  refine addFrom_self f ⟨g.inv, h5, hav, or_lt g.inv hc p, fun kv hkv => ?_⟩ hdt ?_
  · obtain ⟨q, e, hq, ht⟩ := key _ _ _ hm hp kv hkv
    exact ⟨q, e, fun e => hp0 (e ▸ hq), g.live q (by simp [hq]), ht⟩
  · intro e
    rw [e] at hm
    cases kvs with
    | nil => exact hk rfl
    | cons x xs => obtain ⟨q, qs, F1, F2, e, -⟩ := hm; cases e

/-- This needs no fuel bound: every fuel is used up. The object is `{"a": 7}`. -/
example : (setKeyInt envEx (newObject (Heap.init id) false none).2 (newObject (Heap.init id) false none).1 [97] 7).bind
    (fun h => (addFrom 20 h (newObject (Heap.init id) false none).1 (some (newObject (Heap.init id) false none).1) none).bind (fun _ => .ok ())) = .loop := by decide

/-- Adding an object to one of its own members panics: for `v = {"b": {}}`, `v["b"].AddFrom(v)` reaches the member it is just appending. -/
theorem C103_part_panics (f : Nat) :
    let r := newObject (Heap.init id) false none
    (setKey envEx r.2 r.1 [98] .object).bind (fun s => (addFrom (f + 3) s.2 s.1 (some r.1) none).bind (fun _ => .ok ())) = .panic := rfl

end Dxs.Heap
