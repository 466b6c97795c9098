import Verif.Yaml.Pure

/-!
# `NewValueFromYaml` and `LoadFromYaml` on plain trees

`ifFirstObjEle` of a parser from the pool has no effect, so what a text without `*` gives is determined by the text.
-/

namespace Dxs.Yaml

open Dxs.Heap

/-! ## The flag of the parser -/

/-- Parsers that differ in a flag that will not be used. -/
def AlikeP (m m' : PSt) : Prop :=
  m'.last = m.last ∧ m'.kept = m.kept ∧ m'.root = m.root ∧ m'.stack = m.stack ∧ (m'.first = m.first ∨ ∀ n ∈ m.stack, n.isMap = false)

theorem AlikeP.refl (m : PSt) : AlikeP m m := ⟨rfl, rfl, rfl, rfl, Or.inl rfl⟩

theorem RSim.refl {α : Type} {P : α → α → Prop} (h : ∀ x, P x x) (a : Res α) : RSim P a a := by
  cases a with
  | ok x => exact h x
  | err _ => rfl
  | panic => trivial
  | loop => trivial

theorem pclose_sub (sp : Int) : ∀ {l : List PNode} {n : PNode}, n ∈ pclose sp l → n ∈ l
  | [], _, h => h
  | [_], _, h => h
  | n :: n2 :: r, x, h => by
    unfold pclose at h
    split at h
    · exact h
    · exact List.mem_cons_of_mem _ (pclose_sub sp h)

theorem top_flag {m : PSt} (h : ∀ n ∈ m.stack, n.isMap = false) : m.stack.head?.map (·.isMap) ≠ some true := by
  cases hs : m.stack with
  | nil => simp
  | cons n l =>
    rw [hs] at h
    simp [h n (by simp)]

theorem start_flag {m : PSt} (t : VT) (h : ∀ n ∈ m.stack, n.isMap = false) : ∀ n ∈ (m.start t).stack, n.isMap = false := by
  unfold PSt.start
  split
  · simp
  · exact h

section
variable {E : Env} {m : PSt} {x : Bool}

theorem arrLine_flag (E : Env) (l : Bytes) (sp : Int) (f f' : Bool) (w : Val) :
    RSim (fun (a b : Val × List PNode × Bool) => b.1 = a.1 ∧ b.2.1 = a.2.1 ∧ (b.2.2 = a.2.2 ∨ a.2.2 = f ∧ b.2.2 = f' ∧ ∀ n ∈ a.2.1, n.isMap = false)) (arrLine E l sp f w) (arrLine E l sp f' w) := by
  unfold arrLine
  dsimp only
  generalize (if w.vt = VT.object then Val.arr [] else w) = w'
  have bnd : ∀ {α : Type} (a : Res α) (k k' : α → Res (Val × List PNode × Bool)),
      (∀ x, RSim (fun (a b : Val × List PNode × Bool) => b.1 = a.1 ∧ b.2.1 = a.2.1 ∧ (b.2.2 = a.2.2 ∨ a.2.2 = f ∧ b.2.2 = f' ∧ ∀ n ∈ a.2.1, n.isMap = false)) (k x) (k' x)) →
      RSim (fun (a b : Val × List PNode × Bool) => b.1 = a.1 ∧ b.2.1 = a.2.1 ∧ (b.2.2 = a.2.2 ∨ a.2.2 = f ∧ b.2.2 = f' ∧ ∀ n ∈ a.2.1, n.isMap = false)) (a >>= k) (a >>= k') := by
    intro α a k k' hk
    refine RSim.bind (RSim.refl (P := Eq) (fun _ => rfl) a) ?_
    rintro x _ rfl
    exact hk x
  split
  · split
    · exact ⟨rfl, rfl, Or.inr ⟨rfl, rfl, by simp⟩⟩
    · split
      · exact bnd _ _ _ fun x => ⟨rfl, rfl, Or.inr ⟨rfl, rfl, by simp⟩⟩
      · split
        · rfl
        · split
          · exact bnd _ _ _ fun x => ⟨rfl, rfl, Or.inl rfl⟩
          · exact bnd _ _ _ fun x => ⟨rfl, rfl, Or.inl rfl⟩
  · split
    · exact ⟨rfl, rfl, Or.inr ⟨rfl, rfl, by simp⟩⟩
    · exact bnd _ _ _ fun x => ⟨rfl, rfl, Or.inr ⟨rfl, rfl, by simp⟩⟩

theorem start_first (t : VT) : ({ m with first := x } : PSt).start t = { (m.start t) with first := x } := by
  unfold PSt.start
  dsimp only
  split <;> rfl

theorem start_same (t : VT) : (m.start t).first = m.first ∧ (m.start t).last = m.last := by
  unfold PSt.start
  split <;> exact ⟨rfl, rfl⟩

theorem parrLine_flag {line : Bytes} {sp : Int} (h : ∀ n ∈ m.stack, n.isMap = false) : RSim AlikeP (parrLine E line sp m) (parrLine E line sp { m with first := x }) := by
  unfold parrLine
  dsimp only
  split
  · rfl
  rw [start_first (m := m) (x := x)]
  have hs := start_flag .array h
  have h1 := (start_same (m := m) .array).1
  generalize m.start .array = m1 at hs h1
  have ht : ({ m1 with first := x } : PSt).top = m1.top := rfl
  rw [ht]
  cases m1.top with
  | none => trivial
  | some w =>
    refine RSim.bind (arrLine_flag E (trim line) sp m1.first x w) ?_
    rintro ⟨w1, up1, f1⟩ ⟨w2, up2, f2⟩ ⟨e1, e2, e3⟩
    dsimp only at e1 e2 e3
    subst e1 e2
    refine ⟨rfl, rfl, rfl, rfl, ?_⟩
    rcases e3 with e3 | ⟨-, -, e3⟩
    · exact Or.inl e3
    · right
      intro n hn
      simp only [PSt.fill, List.mem_append] at hn
      exact hn.elim (e3 n) (hs n)

theorem pobjLine_flag {line : Bytes} {sp : Int} (h : ∀ n ∈ m.stack, n.isMap = false) : pobjLine E line sp { m with first := x } = pobjLine E line sp m := by
  unfold pobjLine
  rw [start_first (m := m) (x := x)]
  have hs := start_flag .object h
  generalize m.start .object = m1 at hs
  have ht : ({ m1 with first := x } : PSt).top = m1.top := rfl
  have hf : ∀ w up, ({ m1 with first := x } : PSt).fill w up false = m1.fill w up false := fun _ _ => rfl
  simp only [ht, hf]
  have hn := top_flag hs
  simp only [hn, and_false, if_false]

theorem pline_flag {line : Bytes} {sp : Nat} (h : ∀ n ∈ m.stack, n.isMap = false) : RSim AlikeP (pline E line sp m) (pline E line sp { m with first := x }) := by
  unfold pline
  cases (line.drop sp).head? with
  | none => trivial
  | some c =>
    dsimp only
    split
    · exact ⟨rfl, rfl, rfl, rfl, Or.inr h⟩
    have hn := top_flag h
    simp only [hn, and_false, if_false]
    have hst : ∀ n ∈ (if m.last > (sp : Int) then pclose sp (m.stack.drop 2) else if m.last = (sp : Int) then m.stack.drop 1 else m.stack), n.isMap = false := by
      intro n hn
      split at hn
      · exact h n (List.mem_of_mem_drop (pclose_sub _ hn))
      split at hn
      · exact h n (List.mem_of_mem_drop hn)
      · exact h n hn
    generalize (if m.last > (sp : Int) then pclose sp (m.stack.drop 2) else if m.last = (sp : Int) then m.stack.drop 1 else m.stack) = st at hst
    have fin : ∀ a b : PSt, AlikeP a b → AlikeP { a with last := (sp : Int) } { b with last := (sp : Int) } := fun a b hab => ⟨rfl, hab.2.1, hab.2.2.1, hab.2.2.2.1, hab.2.2.2.2⟩
    split
    · refine (parrLine_flag (E := E) (m := { m with stack := st }) (x := x) hst).bind ?_
      exact fun a b hab => fin a b hab
    · have e := pobjLine_flag (E := E) (line := cutComment (line.drop sp)) (sp := (sp : Int)) (m := { m with stack := st }) (x := x) hst
      dsimp only at e
      rw [e]
      exact RSim.refl AlikeP.refl _

theorem pline_alikeP {m' : PSt} {line : Bytes} {sp : Nat} (a : AlikeP m m') : RSim AlikeP (pline E line sp m) (pline E line sp m') := by
  obtain ⟨e1, e2, e3, e4, h⟩ := a
  have e : m' = { m with first := m'.first } := by
    cases m; cases m'; simp_all
  rcases h with h | h
  · have : m' = m := by rw [e, h]
    rw [this]
    exact RSim.refl AlikeP.refl _
  · rw [e]
    exact pline_flag h

theorem ploop_alikeP {data : Bytes} : ∀ (f i : Nat) {m m' : PSt}, AlikeP m m' → RSim AlikeP (ploop E data f i m) (ploop E data f i m')
  | 0, _, _, _, _ => trivial
  | f + 1, i, m, m', a => by
    unfold ploop
    dsimp only
    generalize (if ((data.drop i).takeWhile (· != 10)).length < (data.drop i).length then i + ((data.drop i).takeWhile (· != 10)).length else data.length) = stop
    split
    · split
      · exact a
      · exact ploop_alikeP f _ a
    · refine (pline_alikeP a).bind ?_
      intro x y h
      split
      · exact h
      · exact ploop_alikeP f _ h

end

/-! ## Errors -/

/-- The tree after an error of `parseArray`, yamlparse.go:101-104, 126-135, 152-154. -/
def parrErr (line : Bytes) (sp : Int) (m : PSt) : PSt :=
  if line ≠ [] ∧ line.head? ≠ some 32 ∧ sp ≤ m.last then m
  else
    match (m.start .array).top with
    | none => m.start .array
    | some w => (m.start .array).fill (.arr (arrOf (if w.vt = .object then .arr [] else w) ++ [.str []])) [] (m.start .array).first

/-- The tree after an error of `parseObject`, yamlparse.go:235-238, 277, 293, 316, 379. -/
def pobjErr (line : Bytes) (sp : Int) (m : PSt) : PSt :=
  match (m.start .object).top with
  | none => m.start .object
  | some w =>
    let last := if m.stack.isEmpty = false ∧ (m.start .object).first = true ∧ ((m.start .object).stack.head?.map (·.isMap)) = some true then (m.start .object).last + 2 else (m.start .object).last
    let (key, _, split) := splitKv line
    if m.stack.isEmpty = true ∧ (key = [] ∨ split = false) then m.start .object
    else if last = sp then m.start .object
    else if sp > last then
      if key = [] then m.start .object else if w.vt = .object then m.start .object else (m.start .object).fill (.obj false []) [] false
    else m.start .object

/-- ... of `parseLine`. -/
def plineErr (line : Bytes) (sp : Nat) (m : PSt) : PSt :=
  match (line.drop sp).head? with
  | none => m
  | some c =>
    let l := cutComment (line.drop sp)
    let last : Int := if m.first = true ∧ (m.stack.head?.map (·.isMap)) = some true then m.last + 2 else m.last
    let stack := if last > (sp : Int) then pclose sp (m.stack.drop 2) else if last = (sp : Int) then m.stack.drop 1 else m.stack
    if c = 45 then parrErr (l.drop 1) sp { m with stack := stack } else pobjErr l sp { m with stack := stack }

/-- ... of the loop. -/
def ploopErr (E : Env) (data : Bytes) : Nat → Nat → PSt → PSt
  | 0, _, m => m
  | f + 1, i, m =>
    let rest := data.drop i
    let line := rest.takeWhile (· != 10)
    let stop := if line.length < rest.length then i + line.length else data.length
    if stop < i + 2 then
      if stop + 1 = data.length then m else ploopErr E data f (stop + 1) m
    else
      match pline E line (line.takeWhile (· == 32)).length m with
      | .ok m => if data.length ≤ stop + 1 then m else ploopErr E data f (stop + 1) m
      | _ => plineErr line (line.takeWhile (· == 32)).length m

/-- ... of `parse`. -/
def pparseErr (E : Env) (f : Nat) (data : Bytes) (m : PSt) : PSt :=
  if data = [] then m else ploopErr E data f 0 { m with last := -1 }

/-- The tree that is loaded. -/
def KeptP (r0 : Option Ptr) (h : Heap) (m : PSt) : Prop := ∀ p, r0 = some p → ∃ w F, m.kept.or m.root = some w ∧ Good h (some p) w F

section
variable {E : Env} {k : Nat} {r0 : Option Ptr} {s s' : St} {m : PSt} {pick : Heap → Option Nat}

theorem Rel.kept (a : Rel r0 s m) : KeptP r0 s.h m := by
  intro p hp
  rcases a.made with ⟨h, -⟩ | ⟨r, v, F, e1, e2, g, h5, -, hk⟩
  · rw [h] at hp; cases hp
  · rcases hk p hp with ⟨e, rfl⟩ | ⟨w, F0, e, g0, -⟩
    · exact ⟨v, F, by rw [e, e2]; rfl, g⟩
    · exact ⟨w, F0, by rw [e]; rfl, g0⟩

/-- The value that is being filled is replaced. -/
theorem Rel.topKept (a : Rel r0 s m) (hne : m.stack ≠ []) : ∃ n l w F, s.p.stack = n :: l ∧ m.top = some w ∧ m.stack.head?.map (·.isMap) = some n.isMap ∧ Good s.h (some n.v) w F ∧ 5 ≤ n.v ∧
    ∀ h' w' F' x, Upd s.h F h' (some n.v) w' F' → KeptP r0 h' (m.fill w' [] x) := by
  rcases a.made with ⟨-, -, -, -, -, h⟩ | ⟨r, v, F, e1, e2, g, h5, hst, hk⟩
  · exact absurd h hne
  · have hst := hst.resolve_left (fun h => hne h.2)
    obtain ⟨n, l, k, l', en, ek, hf⟩ := hst.cons
    rw [en, ek] at hst
    obtain ⟨w, Fq, hsub, gq, h5n, hs, hr, hu⟩ := downX g h5 hst
    refine ⟨n, l, w, Fq, en, ?_, by rw [ek]; simp [hf.1], gq, h5n, ?_⟩
    · unfold PSt.top
      rw [e2, ek]
      exact hsub
    · intro h' w' F' x u p hp
      obtain ⟨F2, u2⟩ := hu _ _ _ u
      rcases hk p hp with ⟨h, rfl⟩ | ⟨v0, F0, h, g0, hd⟩
      · refine ⟨_, F2, ?_, u2.good⟩
        simp only [PSt.fill, e2, ek, h, Option.map_some, Option.none_or]
      · exact ⟨v0, F0, by simp only [PSt.fill, h, Option.some_or], g0.frame u2.frame hd⟩

theorem parseArrayErr_sim {line : Bytes} {sp : Int} (a : Rel r0 s m) : KeptP r0 (parseArrayErr pick line sp s) (parrErr line sp m) := by
  unfold parseArrayErr parrErr
  rw [a.last]
  split
  · exact a.kept
  dsimp only
  obtain ⟨b, hne⟩ := a.start (pick := pick) .array rfl (fun _ => rfl)
  have e : (if s.p.stack = [] then newRoot pick .array s else s) = arrStart pick s := rfl
  rw [e] at b
  have ho := b.ok
  generalize arrStart pick s = s1 at b ho
  generalize m.start .array = m1 at b hne
  obtain ⟨n, l, w, F, h1, h2, -, g, h5, hk⟩ := b.topKept hne
  rw [h1, h2]
  simp only [List.head?_cons]
  obtain ⟨F0, u0⟩ := toArr g h5
  have o1 : SOk (if (s1.h.mem n.v).dt = .object then { s1 with h := Heap.reset s1.h n.v .array } else s1) := resetIf_ok ho _ _ _
  generalize (if (s1.h.mem n.v).dt = .object then { s1 with h := Heap.reset s1.h n.v .array } else s1) = s2 at u0 o1
  generalize (if w.vt = .object then .arr [] else w) = w1 at u0
  have H := idx_hands u0.good h5 (-1) .string s2.p.cache o1.2 (fun _ => rfl) rfl
  obtain ⟨G, gq, hq, hpG, hav, hkid, hu⟩ := H.out
  obtain ⟨F', u⟩ := hu _ _ _ gq.upd_refl
  have hput : arrPut (arrOf w1) (-1) (slotOf .string 0 (arrOld (arrOf w1) (-1))) = .arr (arrOf w1 ++ [.str []]) := arrPut_end _ _
  rw [hput] at u
  exact hk _ _ _ _ (UpdX.trans u0 u)

theorem parseObjectErr_sim {line : Bytes} {sp : Int} (a : Rel r0 s m) : KeptP r0 (parseObjectErr pick line sp s) (pobjErr line sp m) := by
  unfold parseObjectErr pobjErr
  have hemp : s.p.stack = [] ↔ m.stack.isEmpty = true := by
    rw [List.isEmpty_iff]
    rcases a.made with ⟨-, -, h1, -, -, h2⟩ | ⟨r, v, F, -, -, -, -, h, -⟩
    · simp [h1, h2]
    · exact h.empty
  obtain ⟨b, hne⟩ := a.start (pick := pick) .object rfl (fun _ => rfl)
  have e : (if s.p.stack = [] then newRoot pick .object s else s) = objStart pick s := rfl
  rw [e] at b
  dsimp only
  simp only [hemp]
  generalize objStart pick s = s1 at b
  generalize m.start .object = m1 at b hne
  generalize m.stack.isEmpty = empty
  obtain ⟨n, l, w, F, h1, h2, hmap, g, h5, hk⟩ := b.topKept hne
  rw [h1, h2, hmap]
  simp only [List.head?_cons]
  rw [← b.first, ← b.last]
  simp only [Option.some.injEq, Bool.not_eq_true]
  generalize (if empty = false ∧ s1.p.first = true ∧ n.isMap = true then s1.p.last + 2 else s1.p.last) = last
  rw [rep_dt g.rep]
  split
  · exact b.kept
  split
  · exact b.kept
  split
  · split
    · exact b.kept
    split
    · exact b.kept
    · have u := reset_upd g h5 .object
      exact hk _ _ _ _ u
  · exact b.kept

theorem parseLineErr_sim {line : Bytes} {sp : Nat} (a : Rel r0 s m) : KeptP r0 (parseLineErr pick line sp s) (plineErr line sp m) := by
  unfold parseLineErr plineErr
  dsimp only
  cases hc : (line.drop sp).head? with
  | none => exact a.kept
  | some c =>
    dsimp only
    have hmap : s.p.stack.head?.map (·.isMap) = m.stack.head?.map (·.isMap) := by
      rcases a.made with ⟨-, -, h1, -, -, h2⟩ | ⟨r, v, F, -, -, -, -, h, -⟩
      · simp [h1, h2]
      · exact h.isMap
    have hlast : (if s.p.first = true ∧ (s.p.stack.head?.map (·.isMap)) = some true then s.p.last + 2 else s.p.last) =
        (if m.first = true ∧ (m.stack.head?.map (·.isMap)) = some true then m.last + 2 else m.last) := by rw [a.first, a.last, hmap]
    rw [hlast]
    have b := a.closed (if m.first = true ∧ (m.stack.head?.map (·.isMap)) = some true then m.last + 2 else m.last) sp
    split
    · exact parseArrayErr_sim b
    · exact parseObjectErr_sim b

theorem parseLoopErr_sim {data : Bytes} (hs : 42 ∉ data) : ∀ (f i : Nat) {s : St} {m : PSt}, Rel r0 s m → KeptP r0 (parseLoopErr E pick k data f i s) (ploopErr E data f i m)
  | 0, _, _, _, a => a.kept
  | f + 1, i, s, m, a => by
    unfold parseLoopErr ploopErr
    dsimp only
    generalize (if ((data.drop i).takeWhile (· != 10)).length < (data.drop i).length then i + ((data.drop i).takeWhile (· != 10)).length else data.length) = stop
    split
    · split
      · exact a.kept
      · exact parseLoopErr_sim hs f _ a
    · have hl : 42 ∉ (data.drop i).takeWhile (· != 10) := fun h => hs (List.mem_of_mem_drop ((List.takeWhile_sublist _).mem h))
      have H := parseLine_sim (E := E) (pick := pick) (k := k) (sp := (((data.drop i).takeWhile (· != 10)).takeWhile (· == 32)).length) a hl
      generalize parseLine E pick k ((data.drop i).takeWhile (· != 10)) (((data.drop i).takeWhile (· != 10)).takeWhile (· == 32)).length s = r at H
      generalize pline E ((data.drop i).takeWhile (· != 10)) (((data.drop i).takeWhile (· != 10)).takeWhile (· == 32)).length m = r' at H
      match r, r', H with
      | .ok s', .ok m', h =>
        dsimp only
        split
        · exact Rel.kept h
        · exact parseLoopErr_sim hs f _ h
      | .err _, .err _, _ => exact parseLineErr_sim a
      | .panic, .panic, _ => exact parseLineErr_sim a
      | .loop, .loop, _ => exact parseLineErr_sim a

theorem parseErr_sim {data : Bytes} (hs : 42 ∉ data) (f : Nat) (a : Rel r0 s m) : KeptP r0 (parseErr E pick f data s) (pparseErr E f data m) := by
  unfold parseErr pparseErr
  split
  · exact a.kept
  · exact parseLoopErr_sim hs f 0 (a.last_set _)

end

/-! ### The flag -/

theorem AlikeP.kept {m m' : PSt} (a : AlikeP m m') : m'.kept.or m'.root = m.kept.or m.root := by rw [a.2.1, a.2.2.1]

section
variable {E : Env} {m : PSt} {x : Bool}

theorem parrErr_flag {line : Bytes} {sp : Int} : (parrErr line sp { m with first := x }).kept.or (parrErr line sp { m with first := x }).root = (parrErr line sp m).kept.or (parrErr line sp m).root := by
  unfold parrErr
  dsimp only
  split
  · rfl
  rw [start_first (m := m) (x := x)]
  generalize m.start .array = m1
  have ht : ({ m1 with first := x } : PSt).top = m1.top := rfl
  rw [ht]
  cases m1.top with
  | none => rfl
  | some w => rfl

theorem pobjErr_flag {line : Bytes} {sp : Int} (h : ∀ n ∈ m.stack, n.isMap = false) :
    (pobjErr line sp { m with first := x }).kept.or (pobjErr line sp { m with first := x }).root = (pobjErr line sp m).kept.or (pobjErr line sp m).root := by
  unfold pobjErr
  rw [start_first (m := m) (x := x)]
  have hs := start_flag .object h
  generalize m.start .object = m1 at hs
  have ht : ({ m1 with first := x } : PSt).top = m1.top := rfl
  have hn := top_flag hs
  rw [ht]
  cases m1.top with
  | none => rfl
  | some w =>
    dsimp only
    simp only [hn, and_false, if_false]
    split
    · rfl
    split
    · rfl
    split
    · split
      · rfl
      split <;> rfl
    · rfl

theorem plineErr_alikeP {m' : PSt} {line : Bytes} {sp : Nat} (a : AlikeP m m') : (plineErr line sp m').kept.or (plineErr line sp m').root = (plineErr line sp m).kept.or (plineErr line sp m).root := by
  obtain ⟨e1, e2, e3, e4, h⟩ := a
  have e : m' = { m with first := m'.first } := by
    cases m; cases m'; simp_all
  rcases h with h | h
  · have : m' = m := by rw [e, h]
    rw [this]
  · rw [e]
    generalize m'.first = x
    unfold plineErr
    cases (line.drop sp).head? with
    | none => rfl
    | some c =>
      have hn := top_flag h
      simp only [hn, and_false, if_false]
      have hst : ∀ n ∈ (if m.last > (sp : Int) then pclose sp (m.stack.drop 2) else if m.last = (sp : Int) then m.stack.drop 1 else m.stack), n.isMap = false := by
        intro n hn
        split at hn
        · exact h n (List.mem_of_mem_drop (pclose_sub _ hn))
        split at hn
        · exact h n (List.mem_of_mem_drop hn)
        · exact h n hn
      generalize (if m.last > (sp : Int) then pclose sp (m.stack.drop 2) else if m.last = (sp : Int) then m.stack.drop 1 else m.stack) = st at hst
      split
      · exact parrErr_flag (m := { m with stack := st })
      · exact pobjErr_flag (m := { m with stack := st }) hst

theorem ploopErr_alikeP {data : Bytes} : ∀ (f i : Nat) {m m' : PSt}, AlikeP m m' →
    (ploopErr E data f i m').kept.or (ploopErr E data f i m').root = (ploopErr E data f i m).kept.or (ploopErr E data f i m).root
  | 0, _, _, _, a => a.kept
  | f + 1, i, m, m', a => by
    unfold ploopErr
    dsimp only
    generalize (if ((data.drop i).takeWhile (· != 10)).length < (data.drop i).length then i + ((data.drop i).takeWhile (· != 10)).length else data.length) = stop
    split
    · split
      · exact a.kept
      · exact ploopErr_alikeP f _ a
    · have H := pline_alikeP (E := E) (line := (data.drop i).takeWhile (· != 10)) (sp := (((data.drop i).takeWhile (· != 10)).takeWhile (· == 32)).length) a
      generalize pline E ((data.drop i).takeWhile (· != 10)) (((data.drop i).takeWhile (· != 10)).takeWhile (· == 32)).length m = r at H
      generalize pline E ((data.drop i).takeWhile (· != 10)) (((data.drop i).takeWhile (· != 10)).takeWhile (· == 32)).length m' = r' at H
      match r, r', H with
      | .ok s', .ok m', h =>
        dsimp only
        split
        · exact AlikeP.kept h
        · exact ploopErr_alikeP f _ h
      | .err _, .err _, _ => exact plineErr_alikeP a
      | .panic, .panic, _ => exact plineErr_alikeP a
      | .loop, .loop, _ => exact plineErr_alikeP a

end

/-! ## The results -/

/-- What `NewValueFromYaml` gives. -/
def newTree (E : Env) (f : Nat) (b : Bytes) : Res (Option Val) := do
  let m ← pparse E f b ⟨false, -1, none, none, []⟩
  .ok m.root

/-- Where `LoadFromYaml` starts. -/
def loadFrom (b : Bytes) : PSt := ⟨false, -1, none, some (if b.head? = some 45 then .arr [] else .obj false []), [⟨false, -1, 0⟩]⟩

/-- What `LoadFromYaml` makes of a value. -/
def loadTree (E : Env) (f : Nat) (b : Bytes) (v : Val) : Res Val :=
  if b.dropWhile isWB = [] then .ok (clearVal v)
  else do
    let m ← pparse E f (b.dropWhile isWB) (loadFrom (b.dropWhile isWB))
    .ok ((m.kept.or m.root).getD .nil)

/-- What it leaves after an error. -/
def loadLeft (E : Env) (f : Nat) (b : Bytes) : Val :=
  let m := pparseErr E f (b.dropWhile isWB) (loadFrom (b.dropWhile isWB))
  (m.kept.or m.root).getD .nil

section
variable {E : Env} {f : Nat} {p : Parser} {h : Heap} {b : Bytes}

/-- The parser on trees, whatever the flag is. -/
theorem pparse_alikeP {m : PSt} (hb : b ≠ []) (hm : ∀ n ∈ m.stack, n.isMap = false) (x : Bool) (y : Int) : RSim AlikeP (pparse E f b m) (pparse E f b { m with first := x, last := y }) := by
  unfold pparse
  rw [if_neg hb, if_neg hb]
  exact ploop_alikeP f 0 ⟨rfl, rfl, rfl, rfl, Or.inr hm⟩

theorem RSim.trans {α β γ : Type} {P : α → β → Prop} {Q : β → γ → Prop} {R : α → γ → Prop} {a : Res α} {b : Res β} {c : Res γ} (h1 : RSim P a b) (h2 : RSim Q b c)
    (hr : ∀ x y z, P x y → Q y z → R x z) : RSim R a c := by
  match a, b, c, h1, h2 with
  | .ok x, .ok y, .ok z, h1, h2 => exact hr x y z h1 h2
  | .err _, .err _, .err _, h1, h2 => exact Eq.trans h1 h2
  | .panic, .panic, .panic, _, _ => trivial
  | .loop, .loop, .loop, _, _ => trivial

theorem RSim.swap {α β : Type} {P : α → β → Prop} {a : Res α} {b : Res β} (h : RSim P a b) : RSim (fun y x => P x y) b a := by
  match a, b, h with
  | .ok x, .ok y, h => exact h
  | .err _, .err _, h => exact Eq.symm h
  | .panic, .panic, _ => trivial
  | .loop, .loop, _ => trivial

/-- A result in memory is a tree. -/
def IsTree (h : Heap) (a : Option Ptr) : Option Val → Prop
  | none => a = none
  | some v => ∃ r F, a = some r ∧ 5 ≤ r ∧ Good h (some r) v F

/-- `NewValueFromYaml` in memory gives what the text means. -/
theorem newYaml_tree (I : Inv h) (hs : 42 ∉ b) (pick : Heap → Option Nat) (uc : Bool) :
    RSim (fun r v => IsTree r.2.h r.1 v) (newValueFromYaml E pick f p.reset h b uc) (newTree E f b) := by
  have a0 : Rel none { p := { p.reset with useCache := uc }, h := h } ⟨p.first, p.last, none, none, []⟩ :=
    ⟨⟨I, by simp [Parser.reset]⟩, rfl, rfl, Or.inl ⟨rfl, rfl, rfl, rfl, rfl, rfl⟩⟩
  have H := parse_sim (E := E) (pick := pick) hs f a0
  have H1 : RSim (fun (x : St) (m : PSt) => IsTree x.h x.p.root m.root) (parse E pick f b { p := { p.reset with useCache := uc }, h := h }) (pparse E f b ⟨false, -1, none, none, []⟩) := by
    have fin : ∀ x m, Rel none x m → IsTree x.h x.p.root m.root := by
      intro x m a
      rcases a.made with ⟨-, e1, -, -, e2, -⟩ | ⟨r, v, F, e1, e2, g, h5, -⟩
      · rw [e2]; exact e1
      · rw [e2]; exact ⟨r, F, e1, h5, g⟩
    by_cases hb : b = []
    · unfold pparse parse
      rw [if_pos hb, if_pos hb]
      exact rfl
    · have A := (pparse_alikeP (E := E) (f := f) (m := ⟨p.first, p.last, none, none, []⟩) hb (by simp) false (-1))
      refine H.trans A ?_
      intro x m m' a al
      rw [al.2.2.1]
      exact fin x m a
  unfold newValueFromYaml newTree
  exact H1.bind (fun x m hx => hx)

/-- Where `LoadFromYaml` starts in memory. -/
theorem loadStart_rel {q : Ptr} {v0 : Val} {F0 : List Ptr} (g : Good (Heap.clear h q) (some q) v0 F0) (I : Inv h) (h5 : 5 ≤ q) (hne : b.dropWhile isWB ≠ []) :
    Rel (some q) (loadStart p.reset h q b) { loadFrom (b.dropWhile isWB) with first := p.first, last := p.last } := by
  have ok := loadStart_ok (p := p) I q b
  unfold loadStart at ok ⊢
  unfold loadFrom
  dsimp only at ok ⊢
  generalize b.dropWhile isWB = d at hne ok
  cases hd : d.head? with
  | none => simp at hd; exact absurd hd hne
  | some c =>
    simp only [hd] at ok
    dsimp only
    have u := reset_upd g h5 (if c = 45 then .array else .object)
    have hbl : blankVal (if c = 45 then VT.array else VT.object) ((Heap.clear h q).mem q).cell = if some c = some 45 then .arr [] else .obj false [] := by
      by_cases hc : c = 45 <;> simp [hc] <;> rfl
    rw [hbl] at u
    exact ⟨ok, rfl, rfl, Or.inr ⟨q, _, [q], rfl, rfl, u.good, h5, Or.inr ⟨⟨rfl, rfl⟩, rfl⟩, fun p hp => Or.inl ⟨rfl, by cases hp; rfl⟩⟩⟩

/-- `Clear`. -/
theorem clear_rep {q : Ptr} {v v0 : Val} {F F0 : List Ptr} (g : Good h (some q) v F) (h5 : 5 ≤ q) (g0 : Good (Heap.clear h q) (some q) v0 F0) : v0 = clearVal v :=
  (rep_det g0.rep (rep_clear h5 g.rep (clear_mem h q))).1

/-- `LoadFromYaml` in memory. -/
theorem loadYaml_tree {q : Ptr} {v v0 : Val} {F F0 : List Ptr} (g : Good h (some q) v F) (g0 : Good (Heap.clear h q) (some q) v0 F0) (h5 : 5 ≤ q) (hs : 42 ∉ b) (pick : Heap → Option Nat) :
    RSim (fun r x => ∃ F, Good r.h (some q) x F) (loadFromYaml E pick f p.reset h q b) (loadTree E f b v) := by
  have hs' : 42 ∉ b.dropWhile isWB := fun hm => hs ((List.dropWhile_sublist _).mem hm)
  by_cases hne : b.dropWhile isWB = []
  · unfold loadFromYaml loadTree
    rw [if_pos hne, hne]
    exact ⟨F0, by rw [← clear_rep g h5 g0]; exact g0⟩
  · have a0 := loadStart_rel (p := p) g0 g.inv h5 hne
    have H := parse_sim (E := E) (pick := pick) hs' f a0
    have A := pparse_alikeP (E := E) (f := f) (m := { loadFrom (b.dropWhile isWB) with first := p.first, last := p.last }) hne (by simp [loadFrom]) false (-1)
    have e : loadFromYaml E pick f p.reset h q b = (parse E pick f (b.dropWhile isWB) (loadStart p.reset h q b) >>= fun s => .ok { p := s.p.reset, h := s.h }) := by
      unfold loadFromYaml loadStart
      dsimp only
      cases hd : (b.dropWhile isWB).head? with
      | none => simp at hd; exact absurd hd (by simpa using hne)
      | some c => rfl
    unfold loadTree
    rw [if_neg hne, e]
    refine (H.trans (R := fun (x : St) (m : PSt) => ∃ w F, m.kept.or m.root = some w ∧ Good x.h (some q) w F) A ?_).bind ?_
    · intro x m m' a al
      rw [AlikeP.kept al]
      exact a.kept q rfl
    · rintro x m ⟨w, F, e, g⟩
      exact ⟨F, by rw [e]; exact g⟩

/-- What `LoadFromYaml` leaves in memory after an error. -/
theorem loadYaml_left {q : Ptr} {v0 : Val} {F0 : List Ptr} (I : Inv h) (g0 : Good (Heap.clear h q) (some q) v0 F0) (h5 : 5 ≤ q) (hs : 42 ∉ b) (hne : b.dropWhile isWB ≠ []) (pick : Heap → Option Nat) :
    ∃ F, Good (parseErr E pick f (b.dropWhile isWB) (loadStart p.reset h q b)) (some q) (loadLeft E f b) F := by
  have hs' : 42 ∉ b.dropWhile isWB := fun hm => hs ((List.dropWhile_sublist _).mem hm)
  have a0 := loadStart_rel (p := p) g0 I h5 hne
  obtain ⟨w, F, e, g⟩ := parseErr_sim (E := E) (pick := pick) hs' f a0 q rfl
  have A : _ = (pparseErr E f (b.dropWhile isWB) { loadFrom (b.dropWhile isWB) with first := p.first, last := p.last }).kept.or _ :=
    (by unfold pparseErr; rw [if_neg hne, if_neg hne]; exact ploopErr_alikeP f 0 (m' := { loadFrom (b.dropWhile isWB) with last := -1 }) ⟨rfl, rfl, rfl, rfl, Or.inr (by simp [loadFrom])⟩ :
      (pparseErr E f (b.dropWhile isWB) (loadFrom (b.dropWhile isWB))).kept.or (pparseErr E f (b.dropWhile isWB) (loadFrom (b.dropWhile isWB))).root =
      (pparseErr E f (b.dropWhile isWB) { loadFrom (b.dropWhile isWB) with first := p.first, last := p.last }).kept.or (pparseErr E f (b.dropWhile isWB) { loadFrom (b.dropWhile isWB) with first := p.first, last := p.last }).root)
  refine ⟨F, ?_⟩
  unfold loadLeft
  dsimp only
  rw [A, e]
  exact g

end

end Dxs.Yaml
