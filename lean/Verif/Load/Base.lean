import Verif.Heap.Clone

/-!
# Parsers that build values in memory

The parsers of the format layers (`Verif.MsgPack`, `Verif.Json`, `Verif.Bson`) return trees. Here the same parsers are modelled as they
work in memory: nodes come from a cache or from the allocator, a failed parse leaves nodes behind or frees them, a value that is
loaded is changed in place.
-/

namespace Dxs.Heap

/-- The outcome of a parser in memory: it returns a result or an error (the memory has changed in both cases), panics, or has not
returned within the fuel. -/
inductive Out (α : Type) where
  | ok (a : α) (h : Heap)
  | err (e : Err) (h : Heap)
  | panic
  | loop

/-- Go on after a success; `if err != nil { return }`. -/
def Out.bind {α β : Type} (x : Out α) (f : α → Heap → Out β) : Out β :=
  match x with
  | .ok a h => f a h
  | .err e h => .err e h
  | .panic => .panic
  | .loop => .loop

/-- A computation that does not touch the memory. -/
def Out.lift {α : Type} (r : Res α) (h : Heap) : Out α :=
  match r with
  | .ok a => .ok a h
  | .err e => .err e h
  | .panic => .panic
  | .loop => .loop

@[simp] theorem Out.bind_ok {α β : Type} (a : α) (h : Heap) (f : α → Heap → Out β) : (Out.ok a h).bind f = f a h := rfl
@[simp] theorem Out.bind_err {α β : Type} (e : Err) (h : Heap) (f : α → Heap → Out β) : (Out.err e h : Out α).bind f = .err e h := rfl
@[simp] theorem Out.bind_panic {α β : Type} (f : α → Heap → Out β) : (Out.panic : Out α).bind f = .panic := rfl
@[simp] theorem Out.bind_loop {α β : Type} (f : α → Heap → Out β) : (Out.loop : Out α).bind f = .loop := rfl

/-- `FreeValue(result)` before an error is returned. -/
def Out.orFree {α : Type} (r : Ptr) : Out α → Out α
  | .err e h => .err e (freeValue h (some r))
  | x => x

/-! ## Values up to the unused half of a float -/

mutual
/-- The same value with zeros in the upper four bytes of the cells of type Float: `SetFloat` does not write them
(dxvalue.go:1011-1019), `Float` does not read them. -/
def canon : Val → Val
  | .float c => .float (setLo32 0 (lo32 c))
  | .obj ku kvs => .obj ku (canonM kvs)
  | .arr xs => .arr (canonL xs)
  | v => v
/-- The members. -/
def canonM : List (Bytes × Val) → List (Bytes × Val)
  | [] => []
  | (k, v) :: kvs => (k, canon v) :: canonM kvs
/-- The elements. -/
def canonL : List Val → List Val
  | [] => []
  | v :: vs => canon v :: canonL vs
end

theorem canonL_eq (xs : List Val) : canonL xs = xs.map canon := by
  induction xs with
  | nil => rfl
  | cons x xs ih => simp [canonL, ih]

theorem canonM_eq (kvs : List (Bytes × Val)) : canonM kvs = kvs.map (fun kv => (kv.1, canon kv.2)) := by
  induction kvs with
  | nil => rfl
  | cons x xs ih => obtain ⟨k, v⟩ := x; simp [canonM, ih]

theorem canonL_append (xs ys : List Val) : canonL (xs ++ ys) = canonL xs ++ canonL ys := by simp [canonL_eq]
theorem canonM_append (xs ys : List (Bytes × Val)) : canonM (xs ++ ys) = canonM xs ++ canonM ys := by simp [canonM_eq]

theorem unescKeys_map {α β : Type} (E : Env) (ku : Bool) (f : α → β) (kvs : List (Bytes × α)) :
    unescKeys E ku (kvs.map (fun kv => (kv.1, f kv.2))) = (unescKeys E ku kvs).map (fun kv => (kv.1, f kv.2)) := by
  unfold unescKeys; split <;> simp

theorem findKey_map {α β : Type} (E : Env) (f : α → β) (kvs : List (Bytes × α)) (name : Bytes) :
    findKey E (kvs.map (fun kv => (kv.1, f kv.2))) name = findKey E kvs name := by
  simp [findKey, List.findIdx?_map, Function.comp_def]

theorem indexByName_map {α β : Type} (E : Env) (ku : Bool) (f : α → β) (kvs : List (Bytes × α)) (name : Bytes) :
    indexByName E ku (kvs.map (fun kv => (kv.1, f kv.2))) name =
      ((indexByName E ku kvs name).1, (indexByName E ku kvs name).2.1, (indexByName E ku kvs name).2.2.map (fun kv => (kv.1, f kv.2))) := by
  unfold indexByName
  rw [unescKeys_map, findKey_map, findKey_map]
  split
  · cases findKey E kvs name <;> rfl
  · rfl

theorem setKeyValueObj_map {α β : Type} (E : Env) (ku : Bool) (f : α → β) (kvs : List (Bytes × α)) (name : Bytes) (v : α) :
    setKeyValueObj E ku (kvs.map (fun kv => (kv.1, f kv.2))) name (f v) =
      ((setKeyValueObj E ku kvs name v).1, (setKeyValueObj E ku kvs name v).2.map (fun kv => (kv.1, f kv.2))) := by
  unfold setKeyValueObj
  rw [indexByName_map]
  rcases indexByName E ku kvs name with ⟨i, ku', kvs'⟩
  cases i with
  | none => simp
  | some i =>
    simp only [Prod.mk.injEq, true_and]
    apply List.ext_getElem?
    intro j
    simp only [List.getElem?_modify, List.getElem?_map]
    cases kvs'[j]? with
    | none => rfl
    | some x => by_cases e : i = j <;> simp [e]

theorem canon_objPut (E : Env) (ku : Bool) (kvs : List (Bytes × Val)) (name : Bytes) (w : Val) :
    canon (objPut E ku kvs name w) = objPut E ku (canonM kvs) name (canon w) := by
  unfold objPut
  rw [canon, canonM_eq, canonM_eq, setKeyValueObj_map]

/-! ## What a parser does to the memory -/

/-- The cache has been used: its first slot is taken. -/
structure Ready (h : Heap) (d : CId) : Prop where
  lt : d < h.nextC
  root : (h.caches d).isroot = false
  len : 1 ≤ (h.caches d).len

/-- Between `h` and `h'` nodes were taken from the cache `c` (or from new caches) and nodes were written; no node that was in use
changed its owner; if a node was taken from `c` then `c` has been used. -/
structure Run (c : Option CId) (h h' : Heap) : Prop where
  step : Step (fun d => c = some d) h h'
  avail : ∀ q, Avail h' q → Avail h q
  owner : ∀ q, ¬Avail h q → (h'.mem q).owner = (h.mem q).owner
  ready : ∀ d, c = some d → Ready h d → Ready h' d
  took : ∀ d, c = some d → Ready h' d ∨ ∀ q, ¬Avail h' q → ¬Avail h q

theorem Run.refl {c : Option CId} {h : Heap} (I : Inv h) : Run c h h :=
  ⟨Step.refl I, fun _ => id, fun _ _ => rfl, fun _ _ => id, fun _ _ => Or.inr (fun _ => id)⟩

theorem Run.trans {c : Option CId} {h h1 h2 : Heap} (a : Run c h h1) (b : Run c h1 h2) : Run c h h2 where
  step := a.step.trans b.step
  avail q hq := a.avail q (b.avail q hq)
  owner q hq := by rw [b.owner q (fun h => hq (a.avail q h)), a.owner q hq]
  ready d hd hr := b.ready d hd (a.ready d hd hr)
  took d hd := by
    rcases b.took d hd with hb | hb
    · exact Or.inl hb
    · rcases a.took d hd with ha | ha
      · exact Or.inl (b.ready d hd ha)
      · exact Or.inr (fun q hq => ha q (hb q hq))

theorem Step.narrow {X Y : CId → Prop} {h h' : Heap} (s : Step Y h h') (hs : ∀ d, Y d → X d ∨ h.nextC ≤ d) : Step X h h' where
  inv := s.inv
  own := s.own
  nextC := s.nextC
  pool := s.pool
  caches d hd hX := s.caches d hd (fun h => (hs d h).elim hX (fun h => by omega))
  roots := s.roots
  owner O q := (s.owner O q).imp id (Or.imp id (fun ⟨d, e, hd⟩ => ⟨d, e, hd.elim (hs d) Or.inr⟩))
  next := s.next
  slots := s.slots

theorem Run.upd {c : Option CId} {h : Heap} (I : Inv h) (p : Ptr) (f : Node → Node) (hd : p < 5 → (f (h.mem p)).dt = (h.mem p).dt)
    (ho : (f (h.mem p)).owner = (h.mem p).owner) : Run c h (h.upd p f) where
  step := upd_step I p f hd ho
  avail _ hq := hq
  owner q _ := by
    by_cases e : q = p
    · subst e; rw [upd_mem_same, ho]
    · rw [upd_mem_ne _ _ e]
  ready _ _ r := ⟨r.lt, r.root, r.len⟩
  took _ _ := Or.inr (fun _ hq => hq)

theorem getValue_ready {h : Heap} (I : Inv h) (c : CId) (t : VT) (hc : c < h.nextC) : Ready (getValue h (some c) t).2 c := by
  obtain ⟨h1, p, g, hc1, hlt, rfl, he, heq⟩ := getValue_some h c t I hc
  rw [heq]
  exact ⟨hc1, by simp [Heap.setC], by simp [Heap.setC]⟩

theorem Run.getValue {c : Option CId} {h : Heap} (I : Inv h) (t : VT) (hc : ∀ d, c = some d → d < h.nextC) : Run c h (Heap.getValue h c t).2 where
  step := getValue_step I c t hc (fun d hd => hd)
  avail := (getValue_spec I c t hc).avail
  owner q hq := by rw [(getValue_spec I c t hc).mem q hq]
  ready d hd _ := by subst hd; exact getValue_ready I d t (hc d rfl)
  took d hd := by subst hd; exact Or.inl (getValue_ready I d t (hc d rfl))

/-- A node taken from a cache in use has no owner. -/
theorem getValue_owner {h : Heap} (I : Inv h) (O : Own h) (d : CId) (t : VT) (r : Ready h d) :
    ((getValue h (some d) t).2.mem (getValue h (some d) t).1).owner = none := by
  obtain ⟨h1, p, g, hc1, hlt, hp, he, heq⟩ := getValue_some h d t I r.lt
  have s1 : Step (fun _ => True) h h1 := by
    rw [he]; split
    · exact Step.refl I
    · rename_i hf; exact grow_step I trivial r.lt hf
  have hr : (h1.caches d).isroot = false := not_root' s1 hc1 r.root
  have hl : 1 ≤ (h1.caches d).len := by
    rw [he]; split
    · exact r.len
    · rename_i hf
      have := r.len
      simpa [growCache, Heap.setC] using this
  rw [heq]
  simp only [set_mem_same, hr, Node.reset]
  simp only [Bool.false_eq_true, if_false]
  refine (s1.own O).tail d hc1 p ?_
  rw [hp, List.getElem?_eq_getElem hlt, Option.getD_some]
  rw [List.mem_iff_getElem]
  refine ⟨(h1.caches d).len - 1, by simp; omega, ?_⟩
  rw [List.getElem_drop]
  congr 1; omega
where
  not_root' {h h' : Heap} {X : CId → Prop} (s : Step X h h') {c : CId} (hc : c < h'.nextC) (hr : (h.caches c).isroot = false) :
      (h'.caches c).isroot = false := by
    cases e : (h'.caches c).isroot with
    | false => rfl
    | true => obtain ⟨h1, h2⟩ := s.roots c hc e; rw [hr] at h2; cases h2

/-- A node made without a cache belongs to a new cache. -/
theorem getValue_fresh {h : Heap} (I : Inv h) (t : VT) :
    ∃ d, ((getValue h none t).2.mem (getValue h none t).1).owner = some d ∧ h.nextC ≤ d ∧ Ready (getValue h none t).2 d := by
  obtain ⟨g, h1, h2, h3, h4, h5, h6, h7⟩ := newCache_spec I false 1 (by omega)
  have hp : (((newCache h false 1).2.caches (newCache h false 1).1).slots[0]?).getD 0 = h.next := by
    rw [h4]; rfl
  simp only [getValue, hp]
  refine ⟨(newCache h false 1).1, by simp, by rw [h1]; exact Nat.le_refl _, ?_, ?_, ?_⟩
  · simp only [set_nextC]; rw [h2, h1]; omega
  · simp [newCache, newSlots, Heap.setC]
  · simp [newCache, newSlots, Heap.setC]

/-- A new tree (or nil) was made in memory that was available; nothing else changed. -/
structure MadeO (h : Heap) (a : Option Ptr) (h' : Heap) (v : Val) (F : List Ptr) : Prop where
  good : Good h' a v F
  frame : Frame h [] h'
  fresh : ∀ r ∈ F, Avail h r

theorem Made.opt {h h' : Heap} {q : Ptr} {v : Val} {F : List Ptr} (m : Made h q h' v F) : MadeO h (some q) h' v F := ⟨m.good, m.frame, m.fresh⟩

/-- Freeing a node without an owner. -/
theorem freeValue_plain {h : Heap} {r : Ptr} (ho : (h.mem r).owner = none) :
    freeValue h (some r) = (h.upd r Node.clear).upd r (fun n => { n with owner := none }) := by
  simp [freeValue, Heap.clear, ho, Node.clear_owner]

/-- How the memory looks after an error: nodes were taken and abandoned, or the result (a proper tree so far) was freed. -/
def Failed (c : Option CId) (h h' : Heap) : Prop :=
  (Frame h [] h' ∧ Run c h h') ∨
  ∃ hm r v F, Made h r hm v F ∧ 5 ≤ r ∧ Run c h hm ∧ h' = freeValue hm (some r) ∧ ∀ d, c = some d → Ready h d → (hm.mem r).owner = none

/-- Inside a larger value the free does nothing but clear the result. -/
theorem Failed.inner {d : CId} {h h' : Heap} (f : Failed (some d) h h') (hr : Ready h d) : Frame h [] h' ∧ Run (some d) h h' := by
  rcases f with f | ⟨hm, r, v, F, m, h5, s, rfl, ho⟩
  · exact f
  · have ho := ho d rfl hr
    have hF : Avail h r := m.fresh r (rep_mem m.good.rep h5)
    rw [freeValue_plain ho]
    have s1 : Run (some d) hm (hm.upd r Node.clear) := Run.upd s.step.inv r _ (fun h => by omega) (Node.clear_owner _)
    have s2 : Run (some d) (hm.upd r Node.clear) ((hm.upd r Node.clear).upd r (fun n => { n with owner := none })) := by
      refine Run.upd s1.step.inv r _ (fun h => by omega) ?_
      simp only [upd_mem_same, Node.clear_owner, ho]
    have f1 : Frame h [] (hm.upd r Node.clear) :=
      m.frame.trans (Frame.upd (F := [r]) m.good.inv _ (fun h => by omega) (Node.clear_owner _) (by simp)) (by simpa using hF)
    refine ⟨f1.trans (Frame.upd (F := [r]) s1.step.inv _ (fun h => by omega) ?_ (by simp)) (by simpa using hF), (s.trans s1).trans s2⟩
    simp only [upd_mem_same, Node.clear_owner, ho]

/-- The memory after an error, also when the caches were in disorder. -/
structure ErrOk (c : Option CId) (h h' : Heap) : Prop where
  inv : Inv h'
  nextC : h.nextC ≤ h'.nextC
  failed : Own h → Failed c h h'

theorem ErrOk.same {c : Option CId} {h : Heap} (I : Inv h) : ErrOk c h h :=
  ⟨I, Nat.le_refl _, fun _ => Or.inl ⟨Frame.refl I _, Run.refl I⟩⟩

/-- The parser in memory does what the parser on trees does: it succeeds with a new value that is the tree (up to the unused halves of
floats), fails with the same error, panics, or runs out of fuel. -/
def Sim (c : Option CId) (h : Heap) : Res (Val × Bytes) → Out (Option Ptr × Bytes) → Prop
  | .ok (v, b), .ok (a, b') h' => b' = b ∧ ∃ v' F, canon v' = v ∧ MadeO h a h' v' F ∧ Run c h h'
  | .err e, .err e' h' => e' = e ∧ ErrOk c h h'
  | .panic, .panic => True
  | .loop, .loop => True
  | _, _ => False

/-! ## Scalars -/

/-- Allocate and write a scalar. -/
theorem alloc_leaf {h : Heap} (I : Inv h) {c : Option CId} (hc : ∀ d, c = some d → d < h.nextC) (t : VT) (f : Node → Node) {w : Val}
    (ho : ∀ n, (f n).owner = n.owner) (hw : ∀ n, Blank n t → leafOf (f n) = some (w)) :
    Made h (getValue h c t).1 ((getValue h c t).2.upd (getValue h c t).1 f) w [(getValue h c t).1] ∧
    Run c h ((getValue h c t).2.upd (getValue h c t).1 f) := by
  have A := getValue_spec I c t hc
  refine ⟨Made.of A (write_leaf A.good rfl A.ge (ho _) (hw _ A.blank)), (Run.getValue I t hc).trans ?_⟩
  exact Run.upd A.inv _ _ (fun h => by have := A.ge; omega) (ho _)

/-- `c.getValue(VT_String)` and `fstrvalue = s`, msgpackparse.go:169-174. -/
def newStr (h : Heap) (c : Option CId) (s : Bytes) : Ptr × Heap :=
  let (r, h) := getValue h c .string
  (r, h.upd r (fun n => { n with str := s }))

/-- `c.getValue(VT_RawString)` and `fstrvalue = s`, jsonparse.go:456-457. -/
def newRaw (h : Heap) (c : Option CId) (s : Bytes) : Ptr × Heap :=
  let (r, h) := getValue h c .rawString
  (r, h.upd r (fun n => { n with str := s }))

/-- `c.getValue(VT_Int)` and `SetInt`, msgpackparse.go:181-182. -/
def newInt (h : Heap) (c : Option CId) (x : BitVec 64) : Ptr × Heap :=
  let (r, h) := getValue h c .int
  (r, setInt h r x)

/-- `c.getValue(VT_Float)` and `SetFloat`, msgpackparse.go:245-246. -/
def newFloat (h : Heap) (c : Option CId) (x : F32) : Ptr × Heap :=
  let (r, h) := getValue h c .float
  (r, setFloat h r x)

/-- `c.getValue(VT_Double)` and `SetDouble`, msgpackparse.go:253-254. -/
def newDouble (h : Heap) (c : Option CId) (x : F64) : Ptr × Heap :=
  let (r, h) := getValue h c .double
  (r, setDouble h r x)

/-- `c.getValue(VT_DateTime)` and `SetDouble`, msgpackparse.go:299-303, jsonparse.go:459-460. -/
def newTime (h : Heap) (c : Option CId) (x : F64) : Ptr × Heap :=
  let (r, h) := getValue h c .dateTime
  (r, setDouble h r x)

/-- `c.getValue(VT_Binary)` (`VT_ExBinary`) and the bytes, msgpackparse.go:277-282, 319-324. -/
def newBin (h : Heap) (c : Option CId) (t : VT) (x : Bytes) : Ptr × Heap :=
  let (r, h) := getValue h c t
  (r, h.upd r (fun n => { n with bin := x }))

section
variable {h : Heap} {c : Option CId}

theorem newStr_made (I : Inv h) (hc : ∀ d, c = some d → d < h.nextC) (s : Bytes) :
    Made h (newStr h c s).1 (newStr h c s).2 (.str s) [(newStr h c s).1] ∧ Run c h (newStr h c s).2 :=
  alloc_leaf I hc .string (fun n => { n with str := s }) (fun _ => rfl) (fun n b => by simp [leafOf, b.dt])

theorem newRaw_made (I : Inv h) (hc : ∀ d, c = some d → d < h.nextC) (s : Bytes) :
    Made h (newRaw h c s).1 (newRaw h c s).2 (.raw s) [(newRaw h c s).1] ∧ Run c h (newRaw h c s).2 :=
  alloc_leaf I hc .rawString (fun n => { n with str := s }) (fun _ => rfl) (fun n b => by simp [leafOf, b.dt])

theorem newInt_made (I : Inv h) (hc : ∀ d, c = some d → d < h.nextC) (x : BitVec 64) :
    Made h (newInt h c x).1 (newInt h c x).2 (.int 0 x) [(newInt h c x).1] ∧ Run c h (newInt h c x).2 := by
  have A := getValue_spec I c .int hc
  have := alloc_leaf I hc .int (fun n => { n with cell := x }) (w := .int 0 x) (fun _ => rfl) (fun n b => by simp [leafOf, b.dt, b.ext])
  simpa only [newInt, setInt, A.blank.dt, if_true] using this

theorem newDouble_made (I : Inv h) (hc : ∀ d, c = some d → d < h.nextC) (x : F64) :
    Made h (newDouble h c x).1 (newDouble h c x).2 (.double x) [(newDouble h c x).1] ∧ Run c h (newDouble h c x).2 := by
  have A := getValue_spec I c .double hc
  have hs : shared (getValue h c .double).1 = false := by simp [shared, A.ge]
  have := alloc_leaf I hc .double (fun n => { n with cell := x }) (w := .double x) (fun _ => rfl) (fun n b => by simp [leafOf, b.dt])
  simpa [newDouble, setDouble, A.blank.dt, hs] using this

theorem newTime_made (I : Inv h) (hc : ∀ d, c = some d → d < h.nextC) (x : F64) :
    Made h (newTime h c x).1 (newTime h c x).2 (.dateTime x) [(newTime h c x).1] ∧ Run c h (newTime h c x).2 := by
  have A := getValue_spec I c .dateTime hc
  have hs : shared (getValue h c .dateTime).1 = false := by simp [shared, A.ge]
  have := alloc_leaf I hc .dateTime (fun n => { n with cell := x }) (w := .dateTime x) (fun _ => rfl) (fun n b => by simp [leafOf, b.dt])
  simpa [newTime, setDouble, A.blank.dt, hs] using this

theorem newFloat_made (I : Inv h) (hc : ∀ d, c = some d → d < h.nextC) (x : F32) :
    ∃ cell, lo32 cell = x ∧ Made h (newFloat h c x).1 (newFloat h c x).2 (.float cell) [(newFloat h c x).1] ∧ Run c h (newFloat h c x).2 := by
  have A := getValue_spec I c .float hc
  have hs : shared (getValue h c .float).1 = false := by simp [shared, A.ge]
  refine ⟨setLo32 ((getValue h c .float).2.mem (getValue h c .float).1).cell x, lo32_setLo32 _ _, ?_⟩
  have e : (newFloat h c x).2 = (getValue h c .float).2.upd (getValue h c .float).1 (fun n => { n with cell := setLo32 n.cell x }) := by
    simp [newFloat, setFloat, A.blank.dt, hs]
  rw [e]
  refine ⟨Made.of A (write_leaf A.good rfl A.ge rfl ?_), (Run.getValue I .float hc).trans ?_⟩
  · simp [leafOf, A.blank.dt]
  · exact Run.upd A.inv _ _ (fun h => by have := A.ge; omega) rfl

theorem newBin_made (I : Inv h) (hc : ∀ d, c = some d → d < h.nextC) (x : Bytes) :
    Made h (newBin h c .binary x).1 (newBin h c .binary x).2 (.bin 0 x) [(newBin h c .binary x).1] ∧ Run c h (newBin h c .binary x).2 :=
  alloc_leaf I hc .binary (fun n => { n with bin := x }) (fun _ => rfl) (fun n b => by simp [leafOf, b.dt, b.ext])

theorem newExBin_made (I : Inv h) (hc : ∀ d, c = some d → d < h.nextC) (x : Bytes) :
    Made h (newBin h c .exBinary x).1 (newBin h c .exBinary x).2 (.exbin 0 x) [(newBin h c .exBinary x).1] ∧ Run c h (newBin h c .exBinary x).2 :=
  alloc_leaf I hc .exBinary (fun n => { n with bin := x }) (fun _ => rfl) (fun n b => by simp [leafOf, b.dt, b.ext])

/-- A constant as a result. -/
theorem made_const (I : Inv h) {p : Ptr} (hp : p < 5) {v : Val} (hv : leafOf { Node.zero with dt := constVT p } = some v) :
    MadeO h (some p) h v [] := by
  refine ⟨⟨I, ?_, by simp, by simp⟩, Frame.refl I _, by simp⟩
  have hl := (leafOf_isLeaf hv).1
  rw [rep_leaf hl]
  refine ⟨p, rfl, by simp [foot, hp], ?_⟩
  rw [← hv]
  have := I.const p hp
  have : p = 0 ∨ p = 1 ∨ p = 2 ∨ p = 3 ∨ p = 4 := by omega
  rcases this with rfl | rfl | rfl | rfl | rfl <;> simp_all [view, leafOf, constVT, nullP, trueP, falseP, nanP]

theorem made_nil (I : Inv h) : MadeO h none h .nil [] := ⟨⟨I, ⟨rfl, rfl⟩, by simp, by simp⟩, Frame.refl I _, by simp⟩

end

/-! ## Composing -/

theorem Sim.ok {c : Option CId} {h h' : Heap} {a : Option Ptr} {b : Bytes} {v v' : Val} {F : List Ptr} (hv : canon v' = v) (m : MadeO h a h' v' F) (s : Run c h h') :
    Sim c h (.ok (v, b)) (.ok (a, b) h') := ⟨rfl, v', F, hv, m, s⟩

/-- Reading before the value is made. -/
theorem Sim.read {α : Type} {c : Option CId} {h : Heap} (I : Inv h) (x : Res α) {f : α → Res (Val × Bytes)} {g : α → Heap → Out (Option Ptr × Bytes)}
    (hs : ∀ a, x = .ok a → Sim c h (f a) (g a h)) : Sim c h (x >>= f) ((Out.lift x h).bind g) := by
  cases x with
  | ok a => exact hs a rfl
  | err e => exact ⟨rfl, ErrOk.same I⟩
  | panic => trivial
  | loop => trivial

end Dxs.Heap
