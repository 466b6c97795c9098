import Verif.Yaml.Model
import Verif.Heap.Calls

/-!
# The YAML parser keeps the memory in order

Whatever the text, the parser and the values it works on. `parseErr` is the memory at the moment an error is returned.
-/

namespace Dxs.Yaml
open Dxs.Heap

/-- The memory is in order and the cache of the parser exists. -/
def SOk (s : St) : Prop := Inv s.h ∧ ∀ d, s.p.cache = some d → d < s.h.nextC

theorem SOk.step {s : St} (o : SOk s) {h' : Heap} (t : Step anyCache s.h h') : SOk { s with h := h' } :=
  ⟨t.inv, fun d hd => Nat.lt_of_lt_of_le (o.2 d hd) t.nextC⟩

theorem SOk.par {s : St} (o : SOk s) {p : Parser} (hp : p.cache = s.p.cache) : SOk { s with p := p } :=
  ⟨o.1, by simpa [hp] using o.2⟩

section
variable {E : Env} {k : Nat} {s s' : St}

theorem strVal_ok (o : SOk s) {amp : Res St} {t : Ptr} {v : Bytes} (ha : ∀ x, amp = .ok x → SOk x) (e : strVal E k amp s t v = .ok s') : SOk s' := by
  unfold strVal at e
  split at e
  · cases e; exact o.step (o.1.setBool_st t true)
  split at e
  · cases e; exact o.step (o.1.setBool_st t false)
  split at e
  · cases e; exact o.step (o.1.setDouble_st t _)
  split at e
  · cases e
  split at e
  · cases e; exact o
  split at e
  · cases e; exact o
  split at e
  · exact ha _ e
  split at e
  · split at e
    · cases e; exact o.step (o.1.setString_st t v)
    · rw [Res.bind_eq_ok] at e
      obtain ⟨h, e1, e⟩ := e
      cases e
      exact o.step (o.1.copyFrom_st k t _ _ o.2 (by simp) (by simp) e1)
  · cases e; exact o.step (o.1.setString_st t v)

theorem strVal2_ok (o : SOk s) {t : Ptr} {v : Bytes} (e : strVal2 E k s t v = .ok s') : SOk s' :=
  strVal_ok o (fun x hx => by cases hx; exact o.step (o.1.setString_st t v)) e

theorem strVal1_ok (o : SOk s) {t : Ptr} {v : Bytes} (e : strVal1 E k s t v = .ok s') : SOk s' := by
  refine strVal_ok o (fun x hx => ?_) e
  split at hx
  · cases hx; exact o.step (o.1.setString_st t [])
  · rename_i i _
    dsimp only at hx
    have o2 : SOk { s with p := { s.p with uses := setUse ((v.take i).drop 1) t s.p.uses } } := o
    split at hx
    · cases hx; exact o2.step (o2.1.setString_st t [])
    · exact strVal2_ok o2 hx

theorem newRoot_ok (o : Inv s.h) (pick : Heap → Option Nat) (t : VT) : SOk (newRoot pick t s) := by
  unfold newRoot
  split
  · have hg := o.getCache (pick s.h)
    generalize getCache s.h (pick s.h) = r at hg
    obtain ⟨c, h⟩ := r
    have st := hg.1.getValue_st (X := anyCache) (some c) t (fun d hd => by cases hd; exact hg.2) (by simp)
    exact ⟨st.inv, fun d hd => by cases hd; exact Nat.lt_of_lt_of_le hg.2 st.nextC⟩
  · have I := o.newCacheValue t (pick s.h)
    generalize newCacheValue s.h t (pick s.h) = r at I
    exact ⟨I, fun d hd => I.owner _ d hd⟩

theorem push_ok (o : SOk s) (m : Bool) (sp : Int) (q : Ptr) : SOk (push s m sp q) := o.par rfl

theorem putKey_ok (o : SOk s) {cur : Ptr} {key : Bytes} {t : VT} {q : Ptr} (e : putKey E s cur key t = .ok (q, s')) : SOk s' := by
  unfold putKey at e
  rw [Res.bind_eq_ok] at e
  obtain ⟨⟨q1, h1⟩, e1, e⟩ := e
  cases e
  exact o.step (o.1.setKeyCached_st E cur key t _ o.2 (by simp) (by simp) e1)

theorem resetIf_ok (o : SOk s) (P : Prop) [Decidable P] (q : Ptr) (t : VT) : SOk (if P then { s with h := reset s.h q t } else s) := by
  split
  · exact o.step (o.1.reset_st q t)
  · exact o

/-- `parseArray` up to the new element: where the error of an element with an empty key is noticed. -/
def arrStart (pick : Heap → Option Nat) (s : St) : St := if s.p.stack = [] then newRoot pick .array s else s

theorem arrStart_ok (o : SOk s) (pick : Heap → Option Nat) : SOk (arrStart pick s) := by
  unfold arrStart
  split
  · exact newRoot_ok o.1 pick _
  · exact o

theorem parseArray_ok (o : SOk s) {pick : Heap → Option Nat} {line : Bytes} {sp : Int} (e : parseArray E pick k line sp s = .ok s') : SOk s' := by
  unfold parseArray at e
  split at e
  · cases e
  have o1 := arrStart_ok o pick
  unfold arrStart at o1
  dsimp only at e
  generalize (if s.p.stack = [] then newRoot pick .array s else s) = s1 at o1 e
  split at e
  · cases e
  rename_i top _
  have o2 := resetIf_ok o1 ((s1.h.mem top.v).dt = .object) top.v .array
  generalize (if (s1.h.mem top.v).dt = .object then { s1 with h := reset s1.h top.v .array } else s1) = s2 at o2 e
  split at e
  · have st := o2.1.setIndexCached_st (X := anyCache) top.v (-1) (if trim line ≠ [] then .string else .array) s2.p.cache o2.2 (by simp)
    generalize setIndexCached s2.h top.v (-1) (if trim line ≠ [] then .string else .array) s2.p.cache = r at st e
    obtain ⟨q, h3⟩ := r
    have o3 := push_ok (o2.step st) false sp q
    split at e
    · cases e; exact o3
    split at e
    · exact strVal1_ok o3 e
    split at e
    · cases e
    have o5 := (o3.step (o3.1.reset_st (X := anyCache) q .object)).par
      (p := { (push { s2 with h := h3 } false sp q).p with
        first := true
        stack := (push { s2 with h := h3 } false sp q).p.stack.modifyHead (fun n => { n with isMap := true }) }) rfl
    split at e
    · rw [Res.bind_eq_ok] at e
      obtain ⟨⟨c, s4⟩, e1, e⟩ := e
      cases e
      exact push_ok (putKey_ok o5 e1) _ _ _
    · rw [Res.bind_eq_ok] at e
      obtain ⟨⟨c', s6⟩, e2, e⟩ := e
      rw [Res.bind_eq_ok] at e
      obtain ⟨s7, e3, e⟩ := e
      cases e
      exact push_ok (strVal1_ok (putKey_ok o5 e2) e3) _ _ _
  · split at e
    · cases e; exact o2
    rw [Res.bind_eq_ok] at e
    obtain ⟨t, e1, e⟩ := e
    cases e
    have o3 := o2.step (o2.1.getString_st (X := anyCache) E .panic top.v)
    exact o3.step (o3.1.setString_st (X := anyCache) _ _)

theorem mergeRef_ok (o : SOk s) {cur : Ptr} {line key v : Bytes} {m : Bool} (e : mergeRef k s cur line key v = .ok (m, s')) : SOk s' := by
  unfold mergeRef at e
  split at e
  · split at e
    · cases e
    split at e
    · split at e
      · cases e; exact o
      split at e
      · rw [Res.bind_eq_ok] at e
        obtain ⟨h, e1, e⟩ := e
        cases e
        exact o.step (o.1.addFrom_st k cur _ _ o.2 (by simp) (by simp) e1)
      · cases e; exact o
    · cases e; exact o
  · cases e; exact o

theorem put_str (o : SOk s) {cur : Ptr} {key v : Bytes} {f : Ptr → St → Res St} {t : VT}
    (hf : ∀ q s1 s2, SOk s1 → f q s1 = .ok s2 → SOk s2)
    (e : (putKey E s cur key t >>= fun x => strVal1 E k x.2 x.1 v >>= fun s => f x.1 s) = .ok s') : SOk s' := by
  rw [Res.bind_eq_ok] at e
  obtain ⟨⟨q, s1⟩, e1, e⟩ := e
  rw [Res.bind_eq_ok] at e
  obtain ⟨s2, e2, e⟩ := e
  exact hf q s2 s' (strVal1_ok (putKey_ok o e1) e2) e

theorem objSame_ok (o : SOk s) {line : Bytes} {sp : Int} {key v : Bytes} {split : Bool} {cur : Ptr}
    (e : objSame E k line sp key v split cur s = .ok s') : SOk s' := by
  unfold objSame at e
  split at e
  · cases e
  rw [Res.bind_eq_ok] at e
  obtain ⟨⟨m, s1⟩, e1, e⟩ := e
  have o1 := mergeRef_ok o e1
  dsimp only at e
  split at e
  · cases e; exact push_ok o1 _ _ _
  split at e
  · exact put_str o1 (f := fun q s => .ok (push s false sp q)) (fun q s1 s2 o h => by cases h; exact push_ok o _ _ _) e
  · rw [Res.bind_eq_ok] at e
    obtain ⟨⟨q, s2⟩, e2, e⟩ := e
    cases e
    exact push_ok (putKey_ok o1 e2) _ _ _

theorem objMember_ok (o : SOk s) {key v : Bytes} {cur q : Ptr} (e : objMember E k key v cur s = .ok (q, s')) : SOk s' := by
  unfold objMember at e
  have pstr : ∀ {w : Bytes} {q : Ptr} {s' : St}, (putKey E s cur key .string >>= fun x => strVal1 E k x.2 x.1 w >>= fun s => Res.ok (x.1, s)) = .ok (q, s') → SOk s' := by
    intro w q s' e
    rw [Res.bind_eq_ok] at e
    obtain ⟨⟨q, s1⟩, e1, e⟩ := e
    rw [Res.bind_eq_ok] at e
    obtain ⟨s2, e2, e⟩ := e
    cases e
    exact strVal1_ok (putKey_ok o e1) e2
  split at e
  · exact putKey_ok o e
  split at e
  · dsimp only at e
    generalize (if 0 < (List.findIdx? (· == 32) (List.drop 1 v)).getD 0 then _ else _ : Bytes × Bytes) = nw at e
    obtain ⟨name, w⟩ := nw
    split at e
    · rw [Res.bind_eq_ok] at e
      obtain ⟨⟨q, s1⟩, e1, e⟩ := e
      cases e
      exact SOk.par (s := s1) (putKey_ok o e1) rfl
    · rw [Res.bind_eq_ok] at e
      obtain ⟨⟨c', s6⟩, e2, e⟩ := e
      rw [Res.bind_eq_ok] at e
      obtain ⟨s7, e3, e⟩ := e
      cases e
      exact SOk.par (s := s7) (strVal1_ok (putKey_ok o e2) e3) rfl
  split at e
  · split at e
    · rw [Res.bind_eq_ok] at e
      obtain ⟨⟨q, h1⟩, e1, e⟩ := e
      cases e
      have st := o.1.clone_st (X := anyCache) k _ o.2 (by simp) e1
      have o2 := o.step st
      exact o2.step (o2.1.setKeyValue_st (X := anyCache) E cur key _)
    · rw [Res.bind_eq_ok] at e
      obtain ⟨⟨q, s1⟩, e1, e⟩ := e
      cases e
      have o2 := putKey_ok o e1
      exact o2.step (o2.1.setString_st (X := anyCache) _ v)
  · exact pstr e

theorem objChild_ok (o : SOk s) {line : Bytes} {sp : Int} {key v : Bytes} {cur : Ptr}
    (e : objChild E k line sp key v cur s = .ok s') : SOk s' := by
  unfold objChild at e
  split at e
  · split at e
    · cases e
    dsimp only at e
    rw [Res.bind_eq_ok] at e
    obtain ⟨t, e1, e⟩ := e
    cases e
    have o3 := o.step (o.1.getString_st (X := anyCache) E .panic cur)
    exact o3.step (o3.1.setString_st (X := anyCache) _ _)
  · have o1 : SOk (if (s.h.mem cur).dt = .object then s else { s with h := reset s.h cur .object }) := by
      split
      · exact o
      · exact o.step (o.1.reset_st _ _)
    dsimp only at e
    generalize (if (s.h.mem cur).dt = .object then s else { s with h := reset s.h cur .object }) = s1 at o1 e
    rw [Res.bind_eq_ok] at e
    obtain ⟨⟨m, s2⟩, e1, e⟩ := e
    have o2 := mergeRef_ok o1 e1
    dsimp only at e
    split at e
    · cases e; exact push_ok o2 _ _ _
    · rw [Res.bind_eq_ok] at e
      obtain ⟨⟨q, s3⟩, e2, e⟩ := e
      cases e
      exact push_ok (objMember_ok o2 e2) _ _ _

theorem objBack_ok (o : SOk s) {line : Bytes} {sp : Int} {key v : Bytes} {split : Bool} {cur : Ptr}
    (e : objBack E k line sp key v split cur s = .ok s') : SOk s' := by
  unfold objBack at e
  split at e
  · cases e
  split at e
  · rw [Res.bind_eq_ok] at e
    obtain ⟨⟨q, s2⟩, e2, e⟩ := e
    cases e
    exact push_ok (putKey_ok o e2) _ _ _
  rw [Res.bind_eq_ok] at e
  obtain ⟨⟨m, s1⟩, e1, e⟩ := e
  have o1 := mergeRef_ok o e1
  dsimp only at e
  split at e
  · cases e; exact push_ok o1 _ _ _
  · exact put_str o1 (f := fun q s => .ok (push s false sp q)) (fun q s1 s2 o h => by cases h; exact push_ok o _ _ _) e

/-- `parseObject` up to the root. -/
def objStart (pick : Heap → Option Nat) (s : St) : St := if s.p.stack = [] then newRoot pick .object s else s

theorem objStart_ok (o : SOk s) (pick : Heap → Option Nat) : SOk (objStart pick s) := by
  unfold objStart
  split
  · exact newRoot_ok o.1 pick _
  · exact o

theorem parseObject_ok (o : SOk s) {pick : Heap → Option Nat} {line : Bytes} {sp : Int} (e : parseObject E pick k line sp s = .ok s') : SOk s' := by
  unfold parseObject at e
  have o1 := objStart_ok o pick
  unfold objStart at o1
  dsimp only at e
  generalize (if s.p.stack = [] then newRoot pick .object s else s) = s1 at o1 e
  split at e
  · cases e
  have o2 : SOk { s1 with p := { s1.p with first := false } } := o1.par rfl
  split at e
  · cases e
  repeat' split at e
  all_goals first | exact objSame_ok o2 e | exact objChild_ok o2 e | exact objBack_ok o2 e

theorem parseLine_ok (o : SOk s) {pick : Heap → Option Nat} {line : Bytes} {sp : Nat} (e : parseLine E pick k line sp s = .ok s') : SOk s' := by
  unfold parseLine at e
  dsimp only at e
  split at e
  · cases e
  split at e
  · cases e; exact o
  split at e
  · rw [Res.bind_eq_ok] at e
    obtain ⟨s1, e1, e⟩ := e
    cases e
    have o1 : SOk s1 := parseArray_ok (by exact o) e1
    exact o1
  · rw [Res.bind_eq_ok] at e
    obtain ⟨s1, e1, e⟩ := e
    cases e
    have o1 : SOk s1 := parseObject_ok (by exact o) e1
    exact o1

theorem parseLoop_ok {pick : Heap → Option Nat} {data : Bytes} : ∀ (f i : Nat) {s s' : St}, SOk s → parseLoop E pick k data f i s = .ok s' → SOk s' := by
  intro f
  induction f with
  | zero => intro i s s' _ e; cases e
  | succ f ih =>
    intro i s s' o e
    rw [parseLoop] at e
    generalize (if (List.takeWhile (fun x => x != 10) (List.drop i data)).length < (List.drop i data).length then _ else _ : Nat) = stop at e
    split at e
    · split at e
      · cases e; exact o
      · exact ih _ o e
    · rw [Res.bind_eq_ok] at e
      obtain ⟨s1, e1, e⟩ := e
      have o1 := parseLine_ok o e1
      split at e
      · cases e; exact o1
      · exact ih _ o1 e

theorem parse_ok (o : SOk s) {pick : Heap → Option Nat} {f : Nat} {data : Bytes} (e : parse E pick f data s = .ok s') : SOk s' := by
  unfold parse at e
  split at e
  · cases e; exact o
  · exact parseLoop_ok f 0 (by exact o) e

end

/-! ## The memory after an error -/

/-- The memory at the two places where `parseArray` returns an error, yamlparse.go:101-104 and 152-154. -/
def parseArrayErr (pick : Heap → Option Nat) (line : Bytes) (sp : Int) (s : St) : Heap :=
  if line ≠ [] ∧ line.head? ≠ some 32 ∧ sp ≤ s.p.last then s.h
  else
    let s := arrStart pick s
    match s.p.stack.head? with
    | none => s.h
    | some top =>
      let s := if (s.h.mem top.v).dt = .object then { s with h := reset s.h top.v .array } else s
      (setIndexCached s.h top.v (-1) .string s.p.cache).2

/-- The memory where `parseObject` (or its `mergeObject`) returns an error, yamlparse.go:235-238, 277, 293, 316, 379: in the branch for
deeper lines the value may have become an object before. -/
def parseObjectErr (pick : Heap → Option Nat) (line : Bytes) (sp : Int) (s : St) : Heap :=
  let s1 := objStart pick s
  match s1.p.stack.head? with
  | none => s1.h
  | some top =>
    let last := if ¬s.p.stack = [] ∧ s1.p.first = true ∧ top.isMap = true then s1.p.last + 2 else s1.p.last
    let (key, _, split) := splitKv line
    if s.p.stack = [] ∧ (key = [] ∨ split = false) then s1.h
    else if last = sp then s1.h
    else if sp > last then
      if key = [] then s1.h else if (s1.h.mem top.v).dt = .object then s1.h else reset s1.h top.v .object
    else s1.h

/-- ... of `parseLine`. -/
def parseLineErr (pick : Heap → Option Nat) (line : Bytes) (sp : Nat) (s : St) : Heap :=
  let l := line.drop sp
  match l.head? with
  | none => s.h
  | some c =>
    let l := cutComment l
    let last := if s.p.first = true ∧ (s.p.stack.head?.map (·.isMap)) = some true then s.p.last + 2 else s.p.last
    let stack := if last > sp then closeTo sp (s.p.stack.drop 2) else if last = sp then s.p.stack.drop 1 else s.p.stack
    let s := { s with p := { s.p with stack := stack } }
    if c = 45 then parseArrayErr pick (l.drop 1) sp s else parseObjectErr pick l sp s

/-- ... of the loop. -/
def parseLoopErr (E : Env) (pick : Heap → Option Nat) (k : Nat) (data : Bytes) : Nat → Nat → St → Heap
  | 0, _, s => s.h
  | f + 1, i, s =>
    let rest := data.drop i
    let line := rest.takeWhile (· != 10)
    let stop := if line.length < rest.length then i + line.length else data.length
    if stop < i + 2 then
      if stop + 1 = data.length then s.h else parseLoopErr E pick k data f (stop + 1) s
    else
      let sp := (line.takeWhile (· == 32)).length
      match parseLine E pick k line sp s with
      | .ok s => if data.length ≤ stop + 1 then s.h else parseLoopErr E pick k data f (stop + 1) s
      | _ => parseLineErr pick line sp s

/-- ... of `parse`. -/
def parseErr (E : Env) (pick : Heap → Option Nat) (f : Nat) (data : Bytes) (s : St) : Heap :=
  if data = [] then s.h
  else parseLoopErr E pick f data f 0 { s with p := { s.p with last := -1 } }

section
variable {E : Env} {k : Nat} {s s' : St}

theorem parseArrayErr_inv (o : SOk s) (pick : Heap → Option Nat) (line : Bytes) (sp : Int) : Inv (parseArrayErr pick line sp s) := by
  unfold parseArrayErr
  split
  · exact o.1
  dsimp only
  have o1 := arrStart_ok o pick
  generalize arrStart pick s = s1 at o1
  split
  · exact o1.1
  · rename_i top _
    have o2 := resetIf_ok o1 ((s1.h.mem top.v).dt = .object) top.v .array
    exact (o2.1.setIndexCached_st (X := anyCache) top.v (-1) .string _ o2.2 (by simp)).inv

theorem parseObjectErr_inv (o : SOk s) (pick : Heap → Option Nat) (line : Bytes) (sp : Int) : Inv (parseObjectErr pick line sp s) := by
  unfold parseObjectErr
  have o1 := objStart_ok o pick
  dsimp only
  generalize objStart pick s = s1 at o1
  split
  · exact o1.1
  · repeat' split
    all_goals first | exact o1.1 | exact o1.1.reset _ _

theorem parseLineErr_inv (o : SOk s) (pick : Heap → Option Nat) (line : Bytes) (sp : Nat) : Inv (parseLineErr pick line sp s) := by
  unfold parseLineErr
  dsimp only
  split
  · exact o.1
  · split
    · exact parseArrayErr_inv (by exact o) pick _ _
    · exact parseObjectErr_inv (by exact o) pick _ _

theorem parseLoopErr_inv (pick : Heap → Option Nat) (data : Bytes) : ∀ (f i : Nat) {s : St}, SOk s → Inv (parseLoopErr E pick k data f i s) := by
  intro f
  induction f with
  | zero => intro i s o; exact o.1
  | succ f ih =>
    intro i s o
    rw [parseLoopErr]
    dsimp only
    generalize (if (List.takeWhile (fun x => x != 10) (List.drop i data)).length < (List.drop i data).length then _ else _ : Nat) = stop
    split
    · split
      · exact o.1
      · exact ih _ o
    · split
      · rename_i s1 e1
        have o1 := parseLine_ok o e1
        split
        · exact o1.1
        · exact ih _ o1
      · exact parseLineErr_inv o pick _ _

theorem parseErr_inv (o : SOk s) (pick : Heap → Option Nat) (f : Nat) (data : Bytes) : Inv (parseErr E pick f data s) := by
  unfold parseErr
  split
  · exact o.1
  · exact parseLoopErr_inv pick data f 0 (by exact o)

end

/-! ## The exported functions -/

/-- `NewValueFromYaml`, yamlparse.go:519-531, with what is left of a parser of the pool: the memory afterwards, also after an error.
`none`: it panics or does not return. -/
def newYamlMem (E : Env) (pick : Heap → Option Nat) (f : Nat) (p : Parser) (h : Heap) (data : Bytes) (useCache : Bool) : Option Heap :=
  match newValueFromYaml E pick f p.reset h data useCache with
  | .ok r => some r.2.h
  | .err _ => some (parseErr E pick f data { p := { p.reset with useCache := useCache }, h := h })
  | _ => none

/-- The state in which `LoadFromYaml` starts to parse, dxvalue.go:278-303. -/
def loadStart (p : Parser) (h : Heap) (v : Ptr) (data : Bytes) : St :=
  let h := Heap.clear h v
  match (data.dropWhile isWB).head? with
  | none => { p := p, h := h }
  | some c =>
    let h := reset h v (if c = 45 then .array else .object)
    { p := { p with useCache := false, root := some v, cache := (h.mem v).owner, stack := ⟨false, -1, v⟩ :: p.stack }, h := h }

/-- `LoadFromYaml`: the memory afterwards. -/
def loadYamlMem (E : Env) (pick : Heap → Option Nat) (f : Nat) (p : Parser) (h : Heap) (v : Ptr) (data : Bytes) : Option Heap :=
  match loadFromYaml E pick f p.reset h v data with
  | .ok s => some s.h
  | .err _ => some (parseErr E pick f (data.dropWhile isWB) (loadStart p.reset h v data))
  | _ => none

theorem newYamlMem_inv {E : Env} {pick : Heap → Option Nat} {f : Nat} {p : Parser} {h : Heap} (I : Inv h) {data : Bytes} {useCache : Bool} {h' : Heap}
    (e : newYamlMem E pick f p h data useCache = some h') : Inv h' := by
  have o : SOk { p := { p.reset with useCache := useCache }, h := h } := ⟨I, by simp [Parser.reset]⟩
  unfold newYamlMem at e
  split at e
  · rename_i r er
    cases e
    unfold newValueFromYaml at er
    rw [Res.bind_eq_ok] at er
    obtain ⟨s1, e1, er⟩ := er
    cases er
    exact (parse_ok o e1).1
  · cases e; exact parseErr_inv o _ _ _
  · cases e

theorem loadStart_ok {p : Parser} {h : Heap} (I : Inv h) (v : Ptr) (data : Bytes) : SOk (loadStart p.reset h v data) := by
  unfold loadStart
  dsimp only
  split
  · exact ⟨I.clear v, by simp [Parser.reset]⟩
  · have I2 := (I.clear v).reset v (if ‹UInt8› = 45 then .array else .object)
    exact ⟨I2, fun d hd => I2.owner v d hd⟩

theorem loadYamlMem_inv {E : Env} {pick : Heap → Option Nat} {f : Nat} {p : Parser} {h : Heap} (I : Inv h) {v : Ptr} {data : Bytes} {h' : Heap}
    (e : loadYamlMem E pick f p h v data = some h') : Inv h' := by
  have o := loadStart_ok (p := p) I v data
  unfold loadYamlMem at e
  split at e
  · rename_i s er
    cases e
    unfold loadFromYaml at er
    unfold loadStart at o
    dsimp only at er o
    split at er
    · cases er; exact I.clear v
    · rename_i c hc
      rw [hc] at o
      rw [Res.bind_eq_ok] at er
      obtain ⟨s1, e1, er⟩ := er
      cases er
      exact (parse_ok o e1).1
  · cases e; exact parseErr_inv o _ _ _
  · cases e

end Dxs.Yaml
