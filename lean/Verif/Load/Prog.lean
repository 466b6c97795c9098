import Verif.Load.World
import Verif.Load.Inside
import Verif.Yaml.Tree
import Verif.Heap.MergeProg

/-!
# Programs that also parse

The programs of `Verif.Heap.Prog` together with the parsers: new values from MessagePack, JSON and BSON, with and without a cache, and
loading into existing values. Every document is allowed, also those that fail; and YAML documents without `*`. Also `ForcePath`, and values
from Go data, and `MergeWith`.
-/

namespace Dxs.Heap
open Json (skipWB)

instance (h : Heap) (q : Ptr) : Decidable (Avail h q) := by unfold Avail; infer_instance

/-- One statement of a program that parses. -/
inductive PCmd where
  /-- a statement that does not parse -/
  | cmd (c : Cmd)
  /-- `x, err = NewValueFromMsgPack(b, cached, false)`; `pick`: what the pool gives -/
  | newMsgPack (i : Nat) (b : Bytes) (cached : Bool) (pick : Option Nat)
  /-- `x, err = NewValueFromJson(b, cached, false)`; `junk`: see `leftover` -/
  | newJson (i : Nat) (b : Bytes) (cached : Bool) (pick : Option Nat) (junk : Ptr → List (Bytes × Option Ptr))
  /-- `x, err = NewValueFromBson(b, cached, false)` -/
  | newBson (i : Nat) (hid b : Bytes) (cached : Bool) (pick : Option Nat)
  /-- `err = node.LoadFromMsgPack(b, false)` -/
  | loadMsgPack (i : Nat) (π : List Nat) (b : Bytes)
  /-- `err = node.LoadFromJson(b, false)` -/
  | loadJson (i : Nat) (π : List Nat) (b : Bytes) (junk : Ptr → List (Bytes × Option Ptr))
  /-- `err = node.LoadFromBson(b, false)` -/
  | loadBson (i : Nat) (π : List Nat) (hid b : Bytes)
  /-- `node.ForcePath(t, path...)` -/
  | forcePath (i : Nat) (π : List Nat) (t : VT) (path : List Bytes)
  /-- `node.SetValue(g)` -/
  | setValue (i : Nat) (π : List Nat) (g : Reflect.Go)
  /-- `node.SetKeyvalue(k, g, c)`, `c` is `node.ValueCache()` (`own`) or nil -/
  | setKeyvalue (i : Nat) (π : List Nat) (k : Bytes) (g : Reflect.Go) (own : Bool)
  /-- `node.SetIndexvalue(n, g, c)`, the same -/
  | setIndexvalue (i : Nat) (π : List Nat) (n : Nat) (g : Reflect.Go) (own : Bool)
  /-- `x, err = NewValueFromYaml(b, cached)`; `p` is what the pool of parsers gives -/
  | newYaml (i : Nat) (b : Bytes) (cached : Bool) (pick : Heap → Option Nat) (p : Yaml.Parser)
  /-- `err = node.LoadFromYaml(b)` -/
  | loadYaml (i : Nat) (π : List Nat) (b : Bytes) (pick : Heap → Option Nat) (p : Yaml.Parser)
  /-- `node.MergeWith(node', g)`; `g` decides on the path; `f` bounds the depth -/
  | merge (i : Nat) (π : List Nat) (j : Nat) (ρ : List Nat) (g : Option (Bytes → MergeOp)) (f : Nat)
  /-- `x = NewValueFrom(g, cached)` -/
  | newFrom (i : Nat) (g : Reflect.Go) (cached : Bool) (pick : Option Nat)

/-- `NewValueFrom`, dxvalue.go:175-187. -/
def newValueFrom (E : Env) (h : Heap) (g : Reflect.Go) (cached : Bool) (pick : Option Nat) : Res (Ptr × Heap) := do
  let r := if cached then newCacheValue h .int pick else h.new Node.zero
  let h ← Reflect.setValue E r.2 r.1 g
  .ok (r.1, h)

/-- An operation on a node, unless it is one of the constants: the statement does nothing then. -/
def St.onNode (s : St) (i : Nat) (π : List Nat) (f : Ptr → Res Heap) : Res St := do
  let q ← s.walk i π
  if shared q then .ok s
  else do
    let h ← f q
    .ok { s with heap := h }

/-- The cache that is passed on. -/
def St.cacheOf (s : St) (own : Bool) (q : Ptr) : Option CId := if own then (s.heap.mem q).owner else none

/-- A JSON parser that fails in an object leaves a member behind whose key and value are those of some earlier use of the memory
(`getKv`, dxvalue.go:48-56, called at jsonparse.go:85 and 165 before the key is known). In the model of the parsers that member is
empty, or missing. Therefore the members of all nodes the parser may have touched, those available in `h0` and the node `q`, become arbitrary after an error. -/
def leftover (h0 h : Heap) (q : Option Ptr) (junk : Ptr → List (Bytes × Option Ptr)) : Heap :=
  scribble h (fun r => decide (Avail h0 r) || q == some r) junk

/-- The result of a parser is stored in a variable; after an error that is nil. -/
def St.take (s : St) (i : Nat) : Out (Option Ptr) → Res St
  | .ok a h => .ok ⟨h, assign s.var i a⟩
  | .err _ h => .ok ⟨h, assign s.var i none⟩
  | .panic => .panic
  | .loop => .loop

/-- The same for the JSON parser. -/
def St.takeJson (s : St) (i : Nat) (junk : Ptr → List (Bytes × Option Ptr)) : Out (Option Ptr) → Res St
  | .ok a h => .ok ⟨h, assign s.var i a⟩
  | .err _ h => .ok ⟨leftover s.heap h none junk, assign s.var i none⟩
  | .panic => .panic
  | .loop => .loop

/-- A value has been loaded, perhaps in part. -/
def St.loaded (s : St) : Out Unit → Res St
  | .ok _ h => .ok { s with heap := h }
  | .err _ h => .ok { s with heap := h }
  | .panic => .panic
  | .loop => .loop

/-- A value has been loaded from JSON. After an error the value may be no tree, so the program does not use it any more. -/
def St.loadedJson (s : St) (i : Nat) (q : Ptr) (junk : Ptr → List (Bytes × Option Ptr)) : Out Unit → Res St
  | .ok _ h => .ok { s with heap := h }
  | .err _ h => .ok ⟨leftover (Heap.clear s.heap q) h (some q) junk, assign s.var i none⟩
  | .panic => .panic
  | .loop => .loop

/-- Values that can be loaded here: not the constants, and inner nodes only if they have no cache of their own (loading those recycles
nodes that other parts of the value may have). -/
def St.loadable (s : St) (π : List Nat) (q : Ptr) : Bool := !shared q && (π.isEmpty || (s.heap.mem q).owner.isNone)

/-- The result of `NewValueFromYaml`, yamlparse.go:519-531; the fuel is enough for every text. -/
def St.newYaml (E : Env) (s : St) (i : Nat) (b : Bytes) (cached : Bool) (pick : Heap → Option Nat) (p : Yaml.Parser) : Res St :=
  match Yaml.newValueFromYaml E pick (b.length + 1) p.reset s.heap b cached with
  | .ok r => .ok ⟨r.2.h, assign s.var i r.1⟩
  | .err _ => .ok ⟨Yaml.parseErr E pick (b.length + 1) b { p := { p.reset with useCache := cached }, h := s.heap }, assign s.var i none⟩
  | .panic => .panic
  | .loop => .loop

/-- `LoadFromYaml`, dxvalue.go:278-307. -/
def St.loadYaml (E : Env) (s : St) (q : Ptr) (b : Bytes) (pick : Heap → Option Nat) (p : Yaml.Parser) : Res St :=
  match Yaml.loadFromYaml E pick (b.length + 1) p.reset s.heap q b with
  | .ok r => .ok { s with heap := r.h }
  | .err _ => .ok { s with heap := Yaml.parseErr E pick (b.length + 1) (b.dropWhile Yaml.isWB) (Yaml.loadStart p.reset s.heap q b) }
  | .panic => .panic
  | .loop => .loop

/-- Perform a statement. YAML with `*` is left out. Loading into a value that is not `loadable` is left out: the statement does nothing then. The
same holds for merges within one value and those that are not `mergeable`. -/
def PCmd.exec (E : Env) (s : St) : PCmd → Res St
  | .cmd c => c.exec E s
  | .newMsgPack i b cached pick => s.take i (newValueFromMsgPackH E s.heap b cached pick)
  | .newJson i b cached pick junk => s.takeJson i junk (newValueFromJsonH E s.heap b cached pick)
  | .newBson i hid b cached pick => s.take i (newValueFromBsonH E hid s.heap b cached pick)
  | .loadMsgPack i π b => do
    let q ← s.walk i π
    if s.loadable π q then s.loaded (loadMsgPackH E s.heap q b) else .ok s
  | .loadJson i π b junk => do
    let q ← s.walk i π
    if s.loadable π q then s.loadedJson i q junk (loadJsonH E s.heap q b) else .ok s
  | .loadBson i π hid b => do
    let q ← s.walk i π
    if s.loadable π q then s.loaded (loadBsonH E hid s.heap q b) else .ok s
  | .forcePath i π t path => s.onNode i π (fun q => (Heap.forcePath E s.heap q t path).bind (fun r => .ok r.2))
  | .setValue i π g => s.onNode i π (fun q => Reflect.setValue E s.heap q g)
  | .setKeyvalue i π k g own => s.onNode i π (fun q => Reflect.setKeyvalue E s.heap q k (s.cacheOf own q) g)
  | .setIndexvalue i π n g own => s.onNode i π (fun q => Reflect.setIndexvalue E s.heap q n (s.cacheOf own q) g)
  | .newYaml i b cached pick p => if 42 ∈ b then .ok s else s.newYaml E i b cached pick p
  | .loadYaml i π b pick p => do
    let q ← s.walk i π
    if s.loadable π q && !decide (42 ∈ b) then s.loadYaml E q b pick p else .ok s
  | .merge i π j ρ g f => do
    let p ← s.walk i π
    let q ← s.walk j ρ
    if shared p || i == j || !mergeable E g f s.heap.mem p q then .ok s
    else do
      let h ← mergeWith E (byPathOp g) f s.heap (some p) (some q)
      .ok { s with heap := h }
  | .newFrom i g cached pick => do
    let r ← newValueFrom E s.heap g cached pick
    .ok (s.store i r)

/-- The variables a statement changes. -/
def PCmd.vars : PCmd → List Nat
  | .cmd c => c.vars
  | .newMsgPack i _ _ _ | .newJson i _ _ _ _ | .newBson i _ _ _ _ | .loadMsgPack i _ _ | .loadJson i _ _ _ | .loadBson i _ _ _ => [i]
  | .forcePath i _ _ _ | .setValue i _ _ | .setKeyvalue i _ _ _ _ | .setIndexvalue i _ _ _ _ | .newFrom i _ _ _ => [i]
  | .newYaml i _ _ _ _ | .loadYaml i _ _ _ _ | .merge i _ _ _ _ _ => [i]

/-- A program. -/
def pexecAll (E : Env) : St → List PCmd → Res St
  | s, [] => .ok s
  | s, c :: cs => do
    let s ← c.exec E s
    pexecAll E s cs

/-! ## New values -/

/-- What a parser of a new value does. -/
def NewOk (c : Option CId) (h : Heap) : Out (Option Ptr) → Prop
  | .ok a h' => (∃ v F, MadeO h a h' v F) ∧ Step (fun d => c = some d) h h' ∧ ∀ p, a = some p → 5 ≤ p → ∀ d, c = some d → (h'.caches d).isroot = false
  | .err _ h' => Own h → Failed c h h' ∨ (Frame h [] h' ∧ Step (fun d => c = some d) h h')
  | _ => True

theorem NewOk.made {c : Option CId} {h h' : Heap} {a : Option Ptr} {v : Val} {F : List Ptr} (m : MadeO h a h' v F) (s : Run c h h') : NewOk c h (.ok a h') := by
  refine ⟨⟨v, F, m⟩, s.step, ?_⟩
  rintro p rfl h5
  have hp := rep_mem m.good.rep h5
  exact s.root (m.fresh p hp) (m.good.live p hp)

theorem Sim.newOk {c : Option CId} {h : Heap} {x : Res (Val × Bytes)} {y : Out (Option Ptr × Bytes)} (l : Sim c h x y) {f : Option Ptr × Bytes → Heap → Out (Option Ptr)}
    (hf : ∀ a b h' v' G, MadeO h a h' v' G → Run c h h' → NewOk c h (f (a, b) h')) : NewOk c h (y.bind f) := by
  match x, y, l with
  | .ok (v, b), .ok (a, b') h', ⟨e, v', G, hv, m, s⟩ => exact hf a b' h' v' G m s
  | .err _, .err _ _, ⟨e, ok⟩ => exact fun O => Or.inl (ok.failed O)
  | .panic, .panic, _ => trivial
  | .loop, .loop, _ => trivial

theorem msgPack_newOk (E : Env) (fuel : Nat) {c : Option CId} {h : Heap} (I : Inv h) (hc : ∀ d, c = some d → d < h.nextC) (b : Bytes) :
    NewOk c h ((parseValueH E fuel c h b).bind fun vb h => .ok vb.1 h) :=
  (parseValueH_spec E fuel c h b I hc).newOk (fun _ _ _ _ _ m s => NewOk.made m s)

theorem jrootH_newOk (E : Env) {c : Option CId} {h : Heap} (I : Inv h) (hc : ∀ d, c = some d → d < h.nextC) (b : Bytes) : NewOk c h (jrootH E c h b) := by
  unfold jrootH
  refine ((jsim E _).value c h _ I hc).newOk (fun a b h' v' G m s => ?_)
  dsimp only
  split
  · exact fun _ => Or.inl (Or.inl ⟨m.frame, s⟩)
  · exact NewOk.made m s

theorem bsonRootH_newOk (E : Env) (hid : Bytes) {c : Option CId} {h : Heap} (I : Inv h) (O : Own h) (hc : ∀ d, c = some d → d < h.nextC) (b : Bytes) :
    NewOk c h (bsonRootH E hid h b c) := by
  unfold bsonRootH
  dsimp only
  have A := getValue_spec I c .object hc
  have st := I.getValue_st (X := fun d => c = some d ∨ h.nextC ≤ d) c .object hc (fun d hd => Or.inl hd)
  have sol := solid_blank I c .object hc
  have hr : ∀ d, c = some d → ((getValue h c .object).2.caches d).isroot = false := by
    rintro d rfl
    exact getValue_root I (hc d rfl) .object
  generalize getValue h c .object = r at A st sol hr
  have hc1 : ∀ d, c = some d → d < r.2.nextC := fun d hd => Nat.lt_of_lt_of_le (hc d hd) st.nextC
  have hF : ∀ q ∈ [r.1], Avail h q := by intro q hq; simp at hq; subst hq; exact A.was
  have u0 : Upd h [] r.2 (some r.1) (.obj false []) [r.1] := ⟨A.good, A.toGrows.frame [], fun q hq => Or.inr (Or.inr (hF q hq))⟩
  have m : Mine (fun d => c = some d ∨ h.nextC ≤ d) r.2 [r.1] := Mine.step (F := []) ⟨O, by simp, fun d hd => Or.inr hd⟩ u0 st
  have l := (bfills E hid (fun d => c = some d ∨ h.nextC ≤ d) c (fun d hd => Or.inl hd) (2 * b.length + 2)).doc _ r.2 b r.1 _ _ A.good A.ge m sol hc1 rfl
  have nar : ∀ {h'}, Step (fun d => c = some d ∨ h.nextC ≤ d) h h' → Step (fun d => c = some d) h h' := fun s => s.narrow (fun d hd => hd)
  generalize bsonDocH E hid c (2 * b.length + 2) b r.1 r.2 = y at l
  match y, l with
  | .ok _ h', ⟨s, v, F, u⟩ =>
    have M := (Made.of A u).opt
    refine ⟨⟨v, F, M⟩, nar (st.trans s), fun p hp h5 d hd => ?_⟩
    exact not_root s (Nat.lt_of_lt_of_le (hc1 d hd) s.nextC) (fun _ => hr d hd)
  | .err _ h', ⟨s, v, F, u⟩ => exact fun _ => Or.inr ⟨(Made.of A u).frame, nar (st.trans s)⟩
  | .panic, _ => trivial
  | .loop, _ => trivial

section
variable {s : St} {L : Nat → Option Live}

theorem Sound.taken (S : Sound s L) (i : Nat) {c : Option CId} {h1 : Heap} (W : WInv h1 L) (hm : ∀ k x, L k = some x → ∀ q ∈ x.F, h1.mem q = s.heap.mem q)
    (hc : ∀ d, c = some d → d < h1.nextC ∧ d ∉ h1.pool ∧ ∀ j y, L j = some y → d ∉ y.cs) {y : Out (Option Ptr)} (l : NewOk c h1 y) {s' : St} (e : s.take i y = .ok s') :
    ∃ L', Sound s' L' ∧ ∀ k, k ≠ i → Keeps s s' L L' k := by
  have hm' : ∀ {h' : Heap}, (∀ q, 5 ≤ q → ¬Avail h1 q → h'.mem q = h1.mem q) → ∀ k x, L k = some x → ∀ q ∈ x.F, h'.mem q = s.heap.mem q := by
    intro h' hh k x hx q hq
    obtain ⟨v, g⟩ := (W.held k x hx).good
    rw [hh q (rep_ge g.rep q hq) (g.live q hq), hm k x hx q hq]
  have hp : ∀ d, d ∈ h1.pool → ¬ c = some d := fun d hd he => (hc d he).2.1 hd
  cases y with
  | ok a h' =>
    cases e
    obtain ⟨⟨v, F, m⟩, st, hr⟩ := l
    have W' := fun hx => W.pass m.frame st hx
    by_cases h5 : ∃ p, a = some p ∧ 5 ≤ p
    · obtain ⟨p, rfl, h5⟩ := h5
      exact S.made i W hm c.toList (fun d hd => hc d (by simpa using hd)) (r := (p, h')) (v := v) (F := F) ⟨m.good, m.frame, m.fresh⟩
        (st.mono (fun d hd => Or.inl (by simp [hd]))) (fun h5 d hd => hr p rfl h5 d (by simpa using hd))
    · refine S.setConst' i a (fun p hpa => ?_) (W' (fun d hd => hp d hd)) (hm' (fun q h5 hq => m.frame.mem q h5 (by simp) hq))
      exact Nat.lt_of_not_le (fun h => h5 ⟨p, hpa, h⟩)
  | err x h' =>
    cases e
    rcases l W.own with f | ⟨f, st⟩
    · obtain ⟨L', S', K⟩ := Sound.setConst' S i none (by simp) W hm
      have W1 := W.failedAt i hc f
      have hm1 := hm' (fun q => f.mem (q := q))
      refine ⟨_, ⟨W1, ?_, ?_⟩, fun k hk => ⟨assign_ne _ _ hk, assign_ne _ _ hk, fun x hx q hq => hm1 k x hx q hq⟩⟩
      · intro k hk
        by_cases e : k = i
        · subst e; exact assign_same _ _ _
        · rw [assign_ne _ _ e]; simp only [assign_ne _ _ e] at hk; exact S.vnone k hk
      · intro k p hk
        by_cases e : k = i
        · subst e; simp only [assign_same] at hk; cases hk
        · rw [assign_ne _ _ e]; simp only [assign_ne _ _ e] at hk; exact S.vsome k p hk
    · exact S.setConst' i none (by simp) (W.pass f st (fun d hd => hp d hd)) (hm' (fun q h5 hq => f.mem q h5 (by simp) hq))
  | panic => cases e
  | loop => cases e

/-- A parser of a new value, with or without a cache. -/
theorem Sound.parsed (S : Sound s L) (i : Nat) (cached : Bool) (pick : Option Nat) {P : Option CId → Heap → Out (Option Ptr)}
    (hP : ∀ c h, Inv h → Own h → (∀ d, c = some d → d < h.nextC) → NewOk c h (P c h)) {y : Out (Option Ptr)}
    (hy : y = if cached then P (some (getCache s.heap pick).1) (getCache s.heap pick).2 else P none s.heap) {s' : St} (e : s.take i y = .ok s') :
    ∃ L', Sound s' L' ∧ ∀ k, k ≠ i → Keeps s s' L L' k := by
  subst hy
  cases cached with
  | false => exact S.taken i S.world (fun _ _ _ _ _ => rfl) (by simp) (hP none s.heap S.world.inv S.world.own (by simp)) e
  | true =>
    obtain ⟨W, hlt, hp, hu⟩ := S.world.getCache pick
    refine S.taken i W (fun k x hx q hq => ?_) ?_ (hP _ _ W.inv W.own ?_) e
    · obtain ⟨v, g⟩ := (S.world.held k x hx).good
      exact getCache_mem S.world.inv pick (g.live q hq)
    · intro d hd; cases hd; exact ⟨hlt, hp, hu⟩
    · intro d hd; cases hd; exact hlt

/-- What a failed JSON parser leaves behind is not seen. -/
theorem Sound.leftover (S : Sound s L) {h0 : Heap} {q : Option Ptr} (junk : Ptr → List (Bytes × Option Ptr)) (hq : ∀ r, Avail h0 r ∨ q = some r → ∀ j y, L j = some y → r ∉ y.F) :
    Sound { s with heap := Heap.leftover h0 s.heap q junk } L ∧ ∀ k x, L k = some x → ∀ r ∈ x.F, (Heap.leftover h0 s.heap q junk).mem r = s.heap.mem r := by
  have hS : ∀ r, (decide (Avail h0 r) || q == some r) = true → ∀ j y, L j = some y → r ∉ y.F := by
    intro r hr
    simp only [Bool.or_eq_true, decide_eq_true_eq, beq_iff_eq] at hr
    exact hq r hr
  refine ⟨⟨S.world.scribble hS junk, S.vnone, S.vsome⟩, fun k x hx r hr => ?_⟩
  simp only [Heap.leftover, scribble]
  rw [if_neg (fun h => hS r h k x hx hr)]

/-- A new value from JSON. -/
theorem Sound.parsedJson (S : Sound s L) (E : Env) (i : Nat) (b : Bytes) (cached : Bool) (pick : Option Nat) (junk : Ptr → List (Bytes × Option Ptr)) {s' : St}
    (e : s.takeJson i junk (newValueFromJsonH E s.heap b cached pick) = .ok s') : ∃ L', Sound s' L' ∧ ∀ k, k ≠ i → Keeps s s' L L' k := by
  have key := fun {s'} => S.parsed i cached pick (fun c h I _ hc => jrootH_newOk E I hc b) (y := newValueFromJsonH E s.heap b cached pick) rfl (s' := s')
  cases hy : newValueFromJsonH E s.heap b cached pick with
  | ok a h => rw [hy] at e key; cases e; exact key rfl
  | err x h =>
    rw [hy] at e key
    cases e
    obtain ⟨L1, S1, K1⟩ := key rfl
    have hi : L1 i = none := S1.vnone i (assign_same _ _ _)
    obtain ⟨S2, hm⟩ := S1.leftover (h0 := s.heap) (q := none) junk (by
      rintro r (hr | hr) j y hy hry
      · have hj : j ≠ i := by rintro rfl; rw [hi] at hy; cases hy
        rw [(K1 j hj).live] at hy
        obtain ⟨v, g⟩ := (S.world.held j y hy).good
        exact g.live r hry hr
      · cases hr)
    refine ⟨L1, S2, fun k hk => ⟨(K1 k hk).live, (K1 k hk).var, fun x hx r hr => ?_⟩⟩
    rw [← (K1 k hk).mem x hx r hr]
    exact hm k x (by rw [(K1 k hk).live]; exact hx) r hr
  | panic => rw [hy] at e; cases e
  | loop => rw [hy] at e; cases e

/-! ## Loading -/

theorem clear_upd {h : Heap} {q : Ptr} (ho : (h.mem q).owner = none) : Heap.clear h q = h.upd q Node.clear := by
  unfold Heap.clear
  rw [ho]

theorem clear_owner (h : Heap) (q : Ptr) : ((Heap.clear h q).mem q).owner = (h.mem q).owner := by
  rw [clear_mem, Node.clear_owner]

/-- `Clear` of a node without a cache. -/
theorem clear_any {h : Heap} {q : Ptr} {w : Val} {F : List Ptr} (g : Good h (some q) w F) (h5 : 5 ≤ q) (ho : (h.mem q).owner = none) :
    Upd h F (Heap.clear h q) (some q) (clearVal w) [q] := by
  rw [clear_upd ho]
  have hq := rep_mem g.rep h5
  have I : Inv (h.upd q Node.clear) := g.inv.upd q _ (fun h => by omega) (Node.clear_owner _)
  refine ⟨⟨I, rep_clear h5 g.rep (upd_mem_same _ _ _), by simp, ?_⟩, ⟨I, fun _ => id, fun r _ hr _ => ?_⟩, ?_⟩
  · intro r hr; simp at hr; subst hr; exact g.live r hq
  · exact set_mem_ne _ _ (by rintro rfl; exact hr hq)
  · intro r hr; simp at hr; subst hr; exact Or.inl hq

/-- The two ways of loading: a whole value, or a node without a cache. -/
theorem Sound.cleared (S : Sound s L) {i : Nat} {π : List Nat} {q : Ptr} (e : s.walk i π = .ok q) (hl : s.loadable π q = true) :
    5 ≤ q ∧ ∃ x, L i = some x ∧ q ∈ x.F ∧
      ((∃ w Fq, (s.heap.mem q).owner = none ∧ Good s.heap (some q) w Fq ∧ (∀ r ∈ Fq, r ∈ x.F) ∧
          ∀ h' w' Fq', Upd s.heap Fq h' (some q) w' Fq' → ∃ v' F', Upd s.heap x.F h' (some x.p) v' F') ∨
       x.p = q) := by
  simp only [St.loadable, Bool.and_eq_true, Bool.not_eq_true', Bool.or_eq_true, List.isEmpty_iff, Option.isNone_iff_eq_none] at hl
  have h5 : 5 ≤ q := Nat.le_of_not_lt (fun h => by rw [shared_iff.2 h] at hl; simp at hl)
  obtain ⟨x, w, Fq, hx, hr, gq, hsub, hup⟩ := S.walk e h5
  refine ⟨h5, x, hx, hsub q (rep_mem gq.rep h5), ?_⟩
  rcases hl.2 with h1 | h1
  · exact Or.inr (hr h1)
  · exact Or.inl ⟨w, Fq, h1, gq, hsub, fun h' w' Fq' u => hup [] h' w' Fq' u (by simp)⟩

/-- The cache of the value is ready after `Clear`. -/
theorem WInv.ready {h : Heap} (W : WInv h L) {i : Nat} {x : Live} (hx : L i = some x) {d : CId} (hd : (h.mem x.p).owner = some d) : d ∈ x.cs ∧ Ready (Heap.clear h x.p) d := by
  have a := W.held i x hx
  obtain ⟨v, g⟩ := a.good
  have hcs := a.owner x.p (rep_mem g.rep a.ge) d hd
  refine ⟨hcs, ?_⟩
  have e : Heap.clear h x.p = (Heap.cacheReset h d false).upd x.p Node.clear := by
    unfold Heap.clear; rw [hd]
  rw [e]
  refine ⟨(a.caches d hcs).1, ?_, ?_⟩
  · simp [Heap.cacheReset, Heap.setC, Heap.upd, Heap.set, a.root d hcs]
  · simp [Heap.cacheReset, Heap.setC, Heap.upd, Heap.set]

/-- A value is loaded. -/
theorem Sound.filled {α : Type} (S : Sound s L) {i : Nat} {π : List Nat} {q : Ptr} (e : s.walk i π = .ok q) (hl : s.loadable π q = true) {y : Out α}
    (hy : ∀ w F, 5 ≤ q → Good (Heap.clear s.heap q) (some q) w F → Fill ((Heap.clear s.heap q).mem q).owner (Heap.clear s.heap q) q F y) {h' : Heap} (em : y.mem = some h') :
    ∃ L', Sound { s with heap := h' } L' ∧ ∀ k, k ≠ i → Keeps s { s with heap := h' } L L' k := by
  obtain ⟨h5, x, hx, hqx, ⟨w, Fq, ho, gq, hsub, hup⟩ | rfl⟩ := S.cleared e hl
  · have u := clear_any gq h5 ho
    have f := hy _ _ h5 u.good
    rw [clear_owner, ho] at f
    have r : Run none s.heap (Heap.clear s.heap q) := by
      rw [clear_upd ho]; exact Run.upd gq.inv q _ (fun h => by omega) (Node.clear_owner _)
    obtain ⟨x', hp, W, hm⟩ := S.world.fill hx hup (by simp) (Fill.after u r f) em
    exact S.change hx hp W hm
  · obtain ⟨W1, -⟩ := S.world.clear hx
    have hx1 := assign_same L i (some (⟨x.p, [x.p], x.cs⟩ : Live))
    obtain ⟨v, g⟩ := (W1.held i _ hx1).good
    obtain ⟨x', hp, W, hm⟩ := W1.fill hx1 (fun h' w' F' u => ⟨w', F', u⟩) (fun d hd => S.world.ready hx (by rw [clear_owner] at hd; exact hd)) (hy v _ h5 g) em
    rw [assign_assign] at W
    refine S.change hx (x' := x') hp W (fun k z hk hz r hr => ?_)
    rw [hm k z hk (by rw [assign_ne _ _ hk]; exact hz) r hr]
    exact clear_mem_ne (by rintro rfl; exact (S.world.apart k i z x hk hz hx).nodes _ hr hqx)

/-- A value that is being loaded. -/
theorem Sound.clearedIn (S : Sound s L) {i : Nat} {π : List Nat} {q : Ptr} (e : s.walk i π = .ok q) (hl : s.loadable π q = true) :
    5 ≤ q ∧ ∃ X w F, Good (Heap.clear s.heap q) (some q) w F ∧ Mine X (Heap.clear s.heap q) F ∧
      ∀ h', In X (Heap.clear s.heap q) F q h' → ∃ L', Sound { s with heap := h' } L' ∧ ∀ k, k ≠ i → Keeps s { s with heap := h' } L L' k := by
  obtain ⟨h5, x, hx, hqx, ⟨w, Fq, ho, gq, hsub, hup⟩ | rfl⟩ := S.cleared e hl
  · have u := clear_any gq h5 ho
    have st : Step (fun d => d ∈ x.cs ∨ s.heap.nextC ≤ d) s.heap (Heap.clear s.heap q) := by
      rw [clear_upd ho]; exact upd_step gq.inv q _ (fun h => by omega) (Node.clear_owner _)
    have m : Mine (fun d => d ∈ x.cs ∨ s.heap.nextC ≤ d) s.heap Fq :=
      ⟨S.world.own, fun r hr d hd => Or.inl ((S.world.held i x hx).owner r (hsub r hr) d hd), fun d hd => Or.inr hd⟩
    refine ⟨h5, _, _, _, u.good, m.step u st, fun h' hin => ?_⟩
    obtain ⟨st2, w', F', u2⟩ := hin
    obtain ⟨v', F', u'⟩ := hup h' w' F' (UpdX.trans u u2)
    exact S.change hx (x' := ⟨x.p, F', x.cs ++ newIds s.heap h'⟩) rfl (S.world.step hx u' (st.trans st2)) (S.others hx u'.frame)
  · obtain ⟨W1, -⟩ := S.world.clear hx
    have hx1 := assign_same L i (some (⟨x.p, [x.p], x.cs⟩ : Live))
    obtain ⟨v, g⟩ := (W1.held i _ hx1).good
    have m : Mine (fun d => d ∈ x.cs ∨ (Heap.clear s.heap x.p).nextC ≤ d) (Heap.clear s.heap x.p) [x.p] :=
      ⟨W1.own, fun r hr d hd => Or.inl ((W1.held i _ hx1).owner r hr d hd), fun d hd => Or.inr hd⟩
    refine ⟨h5, _, _, _, g, m, fun h' hin => ?_⟩
    obtain ⟨st2, w', F', u2⟩ := hin
    have W := W1.step hx1 u2 st2
    rw [assign_assign] at W
    refine S.change hx (x' := ⟨x.p, F', x.cs ++ newIds (Heap.clear s.heap x.p) h'⟩) rfl W (fun k z hk hz r hr => ?_)
    have hne : r ≠ x.p := by rintro rfl; exact (S.world.apart k i z x hk hz hx).nodes _ hr hqx
    obtain ⟨vz, gz⟩ := (W1.held k z (by rw [assign_ne _ _ hk]; exact hz)).good
    rw [u2.frame.mem r (rep_ge gz.rep r hr) (by simp [hne]) (gz.live r hr)]
    exact clear_mem_ne hne

/-- A value is loaded from BSON. -/
theorem Sound.filledBson {α : Type} (S : Sound s L) {i : Nat} {π : List Nat} {q : Ptr} (e : s.walk i π = .ok q) (hl : s.loadable π q = true) {y : Out α}
    (hy : ∀ X w F, 5 ≤ q → Good (Heap.clear s.heap q) (some q) w F → Mine X (Heap.clear s.heap q) F → BFill X (Heap.clear s.heap q) F q y)
    {h' : Heap} (em : y.mem = some h') :
    ∃ L', Sound { s with heap := h' } L' ∧ ∀ k, k ≠ i → Keeps s { s with heap := h' } L L' k := by
  obtain ⟨h5, X, w, F, g, m, hk⟩ := S.clearedIn e hl
  refine hk h' ?_
  match y, hy X w F h5 g m, em with
  | .ok _ _, l, rfl => exact l
  | .err _ _, l, rfl => exact l

theorem Sound.loadMsgPack (S : Sound s L) (E : Env) {i : Nat} {π : List Nat} {q : Ptr} (e : s.walk i π = .ok q) (hl : s.loadable π q = true) (b : Bytes) {s' : St}
    (es : s.loaded (loadMsgPackH E s.heap q b) = .ok s') : ∃ L', Sound s' L' ∧ ∀ k, k ≠ i → Keeps s s' L L' k := by
  have hy : ∀ w F, 5 ≤ q → Good (Heap.clear s.heap q) (some q) w F →
      Fill ((Heap.clear s.heap q).mem q).owner (Heap.clear s.heap q) q F (loadMsgPackH E s.heap q b) := by
    intro w F h5 g
    unfold loadMsgPackH
    exact Fill.ite (fun _ => Fill.same g _) (fun _ => Fill.unit (parse2H_fill E _ g h5 b) _)
  generalize loadMsgPackH E s.heap q b = y at es hy
  cases y with
  | ok a h => cases es; exact S.filled e hl hy rfl
  | err x h => cases es; exact S.filled e hl hy rfl
  | panic => cases es
  | loop => cases es

theorem Sound.loadBson (S : Sound s L) (E : Env) {i : Nat} {π : List Nat} {q : Ptr} (e : s.walk i π = .ok q) (hl : s.loadable π q = true) (hid b : Bytes) {s' : St}
    (es : s.loaded (loadBsonH E hid s.heap q b) = .ok s') : ∃ L', Sound s' L' ∧ ∀ k, k ≠ i → Keeps s s' L L' k := by
  have hy : ∀ X w F, 5 ≤ q → Good (Heap.clear s.heap q) (some q) w F → Mine X (Heap.clear s.heap q) F → BFill X (Heap.clear s.heap q) F q (loadBsonH E hid s.heap q b) := by
    intro X w F h5 g m
    have hq := rep_mem g.rep h5
    have hlt : q < s.heap.next := by
      have h1 := g.live q hq
      rcases Nat.lt_or_ge q (Heap.clear s.heap q).next with h2 | h2
      · rw [clear_next] at h2; exact h2
      · exact absurd (Or.inl h2) h1
    unfold loadBsonH
    refine BFill.ite (fun _ => BFill.same g _) (fun _ => ?_)
    have l := (bfills E hid X ((Heap.clear s.heap q).mem q).owner (m.owner q hq) (2 * b.length + 2)).doc _ _ b q w F g h5 m (solid_clear hlt)
      (fun d hd => g.inv.owner q d hd) rfl
    generalize bsonDocH E hid ((Heap.clear s.heap q).mem q).owner (2 * b.length + 2) b q (Heap.clear s.heap q) = y at l
    cases y with
    | ok a h => exact l
    | err x h => exact l
    | panic => trivial
    | loop => trivial
  generalize loadBsonH E hid s.heap q b = y at es hy
  cases y with
  | ok a h => cases es; exact S.filledBson e hl hy rfl
  | err x h => cases es; exact S.filledBson e hl hy rfl
  | panic => cases es
  | loop => cases es

theorem Sound.loadJson (S : Sound s L) (E : Env) {i : Nat} {π : List Nat} {q : Ptr} (e : s.walk i π = .ok q) (hl : s.loadable π q = true) (b : Bytes)
    (junk : Ptr → List (Bytes × Option Ptr)) {s' : St} (es : s.loadedJson i q junk (loadJsonH E s.heap q b) = .ok s') :
    ∃ L', Sound s' L' ∧ ∀ k, k ≠ i → Keeps s s' L L' k := by
  have hy : ∀ w F, 5 ≤ q → Good (Heap.clear s.heap q) (some q) w F →
      Fill ((Heap.clear s.heap q).mem q).owner (Heap.clear s.heap q) q F (loadJsonH E s.heap q b) := by
    intro w F h5 g
    unfold loadJsonH
    exact Fill.ite (fun _ => Fill.same g _) (fun _ => Fill.unit (json2H_fill E _ g h5 _) _)
  generalize loadJsonH E s.heap q b = y at es hy
  cases y with
  | ok a h => cases es; exact S.filled e hl hy rfl
  | err x h =>
    cases es
    obtain ⟨L1, S1, K1⟩ := S.filled e hl hy rfl
    obtain ⟨L2, S2, K2⟩ := S1.setConst i none (by simp)
    have hi : L2 i = none := S2.vnone i (assign_same _ _ _)
    have live : ∀ k, k ≠ i → L2 k = L k := fun k hk => by rw [(K2 k hk).live, (K1 k hk).live]
    obtain ⟨h5, x, hx, hqx, hcase⟩ := S.cleared e hl
    obtain ⟨S3, hm⟩ := S2.leftover (h0 := Heap.clear s.heap q) (q := some q) junk (by
      intro r hr j y hyj hry
      have hj : j ≠ i := by rintro rfl; rw [hi] at hyj; cases hyj
      rw [live j hj] at hyj
      rcases hr with hr | hr
      · rcases hcase with ⟨w, Fq, ho, -, -, -⟩ | rfl
        · rw [clear_upd ho] at hr
          obtain ⟨v, g⟩ := (S.world.held j y hyj).good
          exact g.live r hry hr
        · obtain ⟨W1, -⟩ := S.world.clear hx
          obtain ⟨v, g⟩ := (W1.held j y (by rw [assign_ne _ _ hj]; exact hyj)).good
          exact g.live r hry hr
      · cases hr
        exact (S.world.apart j i y x hj hyj hx).nodes _ hry hqx)
    refine ⟨L2, S3, fun k hk => ⟨live k hk, assign_ne _ _ hk, fun z hz r hr => ?_⟩⟩
    have h1 := (K1 k hk).mem z hz r hr
    rw [← h1]
    exact hm k z (by rw [live k hk]; exact hz) r hr
  | panic => cases es
  | loop => cases es

/-- Something happens to a node of a value. -/
theorem Sound.inside (S : Sound s L) {i : Nat} {π : List Nat} {q : Ptr} (e : s.walk i π = .ok q) (h5 : 5 ≤ q) {h' : Heap}
    (hy : ∀ X w F, Good s.heap (some q) w F → Mine X s.heap F → In X s.heap F q h') :
    ∃ L', Sound { s with heap := h' } L' ∧ ∀ k, k ≠ i → Keeps s { s with heap := h' } L L' k := by
  obtain ⟨x, w, Fq, hx, -, gq, hsub, hup⟩ := S.walk e h5
  have m : Mine (fun d => d ∈ x.cs ∨ s.heap.nextC ≤ d) s.heap Fq :=
    ⟨S.world.own, fun r hr d hd => Or.inl ((S.world.held i x hx).owner r (hsub r hr) d hd), fun d hd => Or.inr hd⟩
  obtain ⟨st2, w', F', u2⟩ := hy _ _ _ gq m
  obtain ⟨v', F', u'⟩ := hup [] h' w' F' u2 (by simp)
  exact S.change hx (x' := ⟨x.p, F', x.cs ++ newIds s.heap h'⟩) rfl (S.world.step hx u' st2) (S.others hx u'.frame)

theorem Sound.onNode (S : Sound s L) {i : Nat} {π : List Nat} {f : Ptr → Res Heap} {s' : St} (e : s.onNode i π f = .ok s')
    (hy : ∀ q h' X w F, 5 ≤ q → f q = .ok h' → Good s.heap (some q) w F → Mine X s.heap F → In X s.heap F q h') :
    ∃ L', Sound s' L' ∧ ∀ k, k ≠ i → Keeps s s' L L' k := by
  unfold St.onNode at e
  obtain ⟨q, e1, e⟩ := Res.bind_eq_ok.1 e
  split at e
  · cases e; exact ⟨L, S, fun k _ => ⟨rfl, rfl, fun _ _ _ _ => rfl⟩⟩
  · rename_i hs
    have h5 : 5 ≤ q := Nat.le_of_not_lt (fun h => hs (shared_iff.2 h))
    obtain ⟨h', e2, e⟩ := Res.bind_eq_ok.1 e
    cases e
    exact S.inside e1 h5 (fun X w F g m => hy q h' X w F h5 e2 g m)

theorem Sound.cacheOf (own : Bool) {q : Ptr} {X : CId → Prop} {w : Val} {F : List Ptr} (h5 : 5 ≤ q) (g : Good s.heap (some q) w F) (m : Mine X s.heap F) :
    Given X s.heap (s.cacheOf own q) := by
  cases own
  · exact ⟨by simp [St.cacheOf], by simp [St.cacheOf]⟩
  · exact Given.owner g h5 m

/-! ## YAML -/

/-- A new tree with a cache of its own, which is then filled. -/
theorem WInv.root {h : Heap} (W : WInv h L) (pick : Option Nat) {t : VT} (ht : (constOf t).isNone) :
    ∃ c h1 X, WInv h1 L ∧ c < h1.nextC ∧ c ∉ h1.pool ∧ (∀ j y, L j = some y → c ∉ y.cs) ∧ (∀ q, ¬Avail h q → h1.mem q = h.mem q) ∧ c = (Heap.getCache h pick).1 ∧
      (∃ v, Good (newCacheValue h t pick).2 (some (newCacheValue h t pick).1) v [(newCacheValue h t pick).1]) ∧
      Mine X (newCacheValue h t pick).2 [(newCacheValue h t pick).1] ∧ 5 ≤ (newCacheValue h t pick).1 ∧ Given X (newCacheValue h t pick).2 (some c) ∧
      ∀ h', In X (newCacheValue h t pick).2 [(newCacheValue h t pick).1] (newCacheValue h t pick).1 h' →
        (∃ v F, Made h1 (newCacheValue h t pick).1 h' v F) ∧ Step (fun d => d ∈ [c] ∨ h1.nextC ≤ d) h1 h' ∧ (h'.caches c).isroot = false := by
  obtain ⟨W1, hlt, hp, hu⟩ := W.getCache pick
  have hc : constOf t = none := by simpa using ht
  have e : newCacheValue h t pick = Heap.getValue (Heap.getCache h pick).2 (some (Heap.getCache h pick).1) t := by
    unfold newCacheValue; rw [hc]
  have hmem : ∀ q, ¬Avail h q → (Heap.getCache h pick).2.mem q = h.mem q := fun q hq => getCache_mem W.inv pick hq
  rw [e]
  generalize Heap.getCache h pick = r at W1 hlt hp hu hmem
  obtain ⟨c, h1⟩ := r
  simp only at W1 hlt hp hu hmem ⊢
  have hcd : ∀ d, some c = some d → d < h1.nextC := by intro d hd; cases hd; exact hlt
  have A := getValue_spec W1.inv (some c) t hcd
  have st := W1.inv.getValue_st (X := fun d => d ∈ [c] ∨ h1.nextC ≤ d) (some c) t hcd (fun d hd => by cases hd; exact Or.inl (by simp))
  have hr := getValue_root W1.inv hlt t
  generalize Heap.getValue h1 (some c) t = r at A st hr
  have hF : ∀ q ∈ [r.1], Avail h1 q := by intro q hq; simp at hq; subst hq; exact A.was
  have u0 : Upd h1 [] r.2 (some r.1) (blankVal t (r.2.mem r.1).cell) [r.1] := ⟨A.good, A.toGrows.frame [], fun q hq => Or.inr (Or.inr (hF q hq))⟩
  have m : Mine (fun d => d ∈ [c] ∨ h1.nextC ≤ d) r.2 [r.1] := Mine.step (F := []) ⟨W1.own, by simp, fun d hd => Or.inr hd⟩ u0 st
  refine ⟨c, h1, fun d => d ∈ [c] ∨ h1.nextC ≤ d, W1, hlt, hp, hu, hmem, rfl, ⟨_, u0.good⟩, m, A.ge, ⟨fun d hd => ?_, fun d hd => ?_⟩, ?_⟩
  · cases hd; exact Nat.lt_of_lt_of_le hlt st.nextC
  · cases hd; exact Or.inl (by simp)
  · rintro h' ⟨st2, v, F, u⟩
    refine ⟨⟨v, F, Made.of A u⟩, st.trans st2, ?_⟩
    exact not_root st2 (Nat.lt_of_lt_of_le (Nat.lt_of_lt_of_le hlt st.nextC) st2.nextC) (fun _ => hr)

/-- What is known while a YAML document is parsed into a new value: the values in use are as before. -/
def Calm (s : St) (L : Nat → Option Live) (h : Heap) : Prop := WInv h L ∧ ∀ k x, L k = some x → ∀ q ∈ x.F, h.mem q = s.heap.mem q

/-- A new tree disturbs nothing. -/
theorem Calm.root {h : Heap} (K : Calm s L h) (pick : Option Nat) {t : VT} (ht : (constOf t).isNone) :
    ∃ X, (∃ v, Good (newCacheValue h t pick).2 (some (newCacheValue h t pick).1) v [(newCacheValue h t pick).1]) ∧
      Mine X (newCacheValue h t pick).2 [(newCacheValue h t pick).1] ∧ 5 ≤ (newCacheValue h t pick).1 ∧
      Given X (newCacheValue h t pick).2 (some (Heap.getCache h pick).1) ∧
      ∀ h', In X (newCacheValue h t pick).2 [(newCacheValue h t pick).1] (newCacheValue h t pick).1 h' → Calm s L h' ∧
        ∀ i, Sound s L → ∃ L', Sound (s.store i ((newCacheValue h t pick).1, h')) L' ∧ ∀ k, k ≠ i → Keeps s (s.store i ((newCacheValue h t pick).1, h')) L L' k := by
  obtain ⟨W, hm⟩ := K
  obtain ⟨c, h1, X, W1, hlt, hp, hu, hmem, rfl, g, m, h5, gv, hin⟩ := W.root pick ht
  have hm1 : ∀ k x, L k = some x → ∀ q ∈ x.F, h1.mem q = s.heap.mem q := by
    intro k x hx q hq
    obtain ⟨v, g⟩ := (W.held k x hx).good
    rw [hmem q (g.live q hq), hm k x hx q hq]
  refine ⟨X, g, m, h5, gv, fun h' hi => ?_⟩
  obtain ⟨⟨v, F, M⟩, st, hr⟩ := hin h' hi
  refine ⟨⟨W1.pass M.frame st ?_, ?_⟩, fun i S => ?_⟩
  · rintro d hd (h1 | h1)
    · simp at h1; subst h1; exact hp hd
    · have := W1.inv.pool d hd; omega
  · intro k x hx q hq
    obtain ⟨v, g⟩ := (W1.held k x hx).good
    rw [M.frame.mem q (rep_ge g.rep q hq) (by simp) (g.live q hq), hm1 k x hx q hq]
  · refine S.made i W1 hm1 [(Heap.getCache h pick).1] ?_ (r := ((newCacheValue h t pick).1, h')) M st ?_
    · intro d hd; simp at hd; subst hd; exact ⟨hlt, hp, hu⟩
    · intro _ d hd; simp at hd; subst hd; exact hr

/-- A new value from YAML. -/
theorem Sound.newYaml (S : Sound s L) (E : Env) (i : Nat) (b : Bytes) (cached : Bool) (pick : Heap → Option Nat) (p : Yaml.Parser) (hb : 42 ∉ b) {s' : St}
    (e : s.newYaml E i b cached pick p = .ok s') : ∃ L', Sound s' L' ∧ ∀ k, k ≠ i → Keeps s s' L L' k := by
  let R : Ptr → Heap → Prop := fun r h => Calm s L h ∧ ∃ L', Sound (s.store i (r, h)) L' ∧ ∀ k, k ≠ i → Keeps s (s.store i (r, h)) L L' k
  have hm : Yaml.CanMake (Calm s L) R := by
    intro h t pick K ht
    obtain ⟨X, ⟨v, g⟩, m, h5, gv, hin⟩ := K.root pick ht
    exact ⟨X, _, v, g, m, h5, gv, fun h' hi => ⟨(hin h' hi).1, (hin h' hi).2 i S⟩⟩
  have hRK : ∀ r h, R r h → Calm s L h := fun r h a => a.1
  have a0 : Yaml.Ready (Calm s L) R { p := { p.reset with useCache := cached }, h := s.heap } := Or.inl ⟨rfl, rfl, S.world, fun _ _ _ _ _ => rfl⟩
  unfold St.newYaml at e
  split at e
  · rename_i r er
    cases e
    unfold Yaml.newValueFromYaml at er
    obtain ⟨s1, e1, er⟩ := Res.bind_eq_ok.1 er
    cases er
    rcases Yaml.parse_tr hm hRK hb a0 e1 with ⟨h1, -, W, hk⟩ | ⟨st, h1, -⟩
    · rw [h1]; exact S.setConst' i none (by simp) W hk
    · obtain ⟨r, hr, -, hS⟩ := h1.done
      rw [hr]; exact hS
  · cases e
    obtain ⟨W, hk⟩ := Yaml.parseErr_tr (E := E) (pick := pick) (f := b.length + 1) hm hRK hb a0
    exact S.setConst' i none (by simp) W hk
  · cases e
  · cases e

/-- A value is loaded from YAML. -/
theorem Sound.loadYaml (S : Sound s L) (E : Env) {i : Nat} {π : List Nat} {q : Ptr} (e : s.walk i π = .ok q) (hl : s.loadable π q = true) (b : Bytes)
    (pick : Heap → Option Nat) (p : Yaml.Parser) (hb : 42 ∉ b) {s' : St} (es : s.loadYaml E q b pick p = .ok s') :
    ∃ L', Sound s' L' ∧ ∀ k, k ≠ i → Keeps s s' L L' k := by
  let K : Heap → Prop := fun h => ∃ L', Sound { s with heap := h } L' ∧ ∀ k, k ≠ i → Keeps s { s with heap := h } L L' k
  have hm : Yaml.CanMake K (fun _ h => K h) := by
    rintro h t pick ⟨L', S', hk⟩ ht
    have C : Calm { s with heap := h } L' h := ⟨S'.world, fun _ _ _ _ _ => rfl⟩
    obtain ⟨X, ⟨v, g⟩, m, h5, gv, hin⟩ := C.root pick ht
    refine ⟨X, _, v, g, m, h5, gv, fun h' hi => ?_⟩
    obtain ⟨⟨W, hk'⟩, -⟩ := hin h' hi
    refine ⟨L', ⟨W, S'.vnone, S'.vsome⟩, fun k hne => ⟨(hk k hne).live, rfl, fun x hx r hr => ?_⟩⟩
    rw [← (hk k hne).mem x hx r hr]
    exact hk' k x ((hk k hne).live.trans hx) r hr
  obtain ⟨h5, X, w, F, g, m, hK⟩ := S.clearedIn e hl
  have hb' : 42 ∉ b.dropWhile Yaml.isWB := fun h => hb ((List.dropWhile_sublist _).mem h)
  have start : ∀ t, Yaml.Ready K (fun _ h => K h) { p := { p.reset with useCache := false, root := some q, cache := ((Heap.reset (Heap.clear s.heap q) q t).mem q).owner, stack := ⟨false, -1, q⟩ :: p.reset.stack }, h := Heap.reset (Heap.clear s.heap q) q t } := by
    intro t
    have i1 : In X (Heap.clear s.heap q) F q (Heap.reset (Heap.clear s.heap q) q t) := In.mut (E := E) g h5 m (.reset t) rfl
    obtain ⟨st, v1, F1, u⟩ := i1
    have m1 := m.step u st
    refine Or.inr ⟨[q], ⟨q, X, Heap.clear s.heap q, F, rfl, fun h' hi => hK h' hi, ⟨m, ⟨st, v1, F1, u⟩, Given.owner u.good h5 m1, rfl, by simpa using h5, ?_⟩⟩, Or.inr rfl⟩
    rintro q' rest he; cases he; trivial
  have none : K (Heap.clear s.heap q) := hK _ (In.refl g)
  unfold St.loadYaml at es
  split at es
  · rename_i r er
    cases es
    unfold Yaml.loadFromYaml at er
    dsimp only at er
    split at er
    · cases er; exact none
    · obtain ⟨s1, e1, er⟩ := Res.bind_eq_ok.1 er
      cases er
      have fin : K s1.h := (Yaml.parse_tr hm (fun _ _ h => h) hb' (start _) e1).known (fun _ _ h => h)
      exact fin
  · rename_i er
    cases es
    unfold Yaml.loadFromYaml at er
    unfold Yaml.loadStart
    dsimp only at er ⊢
    split at er
    · cases er
    · rename_i c hc
      rw [hc]
      exact Yaml.parseErr_tr (E := E) hm (fun _ _ h => h) hb' (start _)
  · cases es
  · cases es

/-- A new value from Go data. -/
theorem Sound.newFrom (S : Sound s L) (E : Env) (i : Nat) (g : Reflect.Go) (cached : Bool) (pick : Option Nat) {r : Ptr × Heap}
    (e : newValueFrom E s.heap g cached pick = .ok r) : ∃ L', Sound (s.store i r) L' ∧ ∀ k, k ≠ i → Keeps s (s.store i r) L L' k := by
  unfold newValueFrom at e
  obtain ⟨h', e1, e⟩ := Res.bind_eq_ok.1 e
  cases e
  have key : ∃ L', Sound (s.store i (if cached then newCacheValue s.heap .int pick else s.heap.new Node.zero)) L' ∧
      ∀ k, k ≠ i → Keeps s (s.store i (if cached then newCacheValue s.heap .int pick else s.heap.new Node.zero)) L L' k := by
    cases cached
    · exact S.newPlain i .object
    · exact S.newCached i .int pick
  have h5 : 5 ≤ (if cached then newCacheValue s.heap .int pick else s.heap.new Node.zero).1 := by
    cases cached
    · exact S.world.inv.next5
    · obtain ⟨W, hlt, -, -⟩ := S.world.getCache pick
      exact (getValue_spec W.inv (some (Heap.getCache s.heap pick).1) .int (by intro d hd; cases hd; exact hlt)).ge
  generalize (if cached then newCacheValue s.heap .int pick else s.heap.new Node.zero) = r at e1 key h5
  obtain ⟨L1, S1, K1⟩ := key
  have hw : (s.store i r).walk i [] = .ok r.1 := by simp [St.walk, St.store, assign_same, ptrAt]
  obtain ⟨L2, S2, K2⟩ := S1.inside hw h5 (h' := h') (fun X w F gd m => Reflect.setValue_in gd h5 m g e1)
  refine ⟨L2, S2, fun k hk => ⟨(K2 k hk).live.trans (K1 k hk).live, (K2 k hk).var.trans (K1 k hk).var, fun x hx q hq => ?_⟩⟩
  exact ((K2 k hk).mem x ((K1 k hk).live.trans hx) q hq).trans ((K1 k hk).mem x hx q hq)

/-- Every statement keeps the values apart, and leaves those it does not mention alone. -/
theorem Sound.pexec (S : Sound s L) (E : Env) (c : PCmd) {s' : St} (e : c.exec E s = .ok s') : ∃ L', Sound s' L' ∧ ∀ k, k ∉ c.vars → Keeps s s' L L' k := by
  have skip : ∃ L', Sound s L' ∧ ∀ k, k ∉ c.vars → Keeps s s L L' k := ⟨L, S, fun k _ => ⟨rfl, rfl, fun _ _ _ _ => rfl⟩⟩
  have one : ∀ {i : Nat} {s' : St}, c.vars = [i] → (∃ L', Sound s' L' ∧ ∀ k, k ≠ i → Keeps s s' L L' k) →
      ∃ L', Sound s' L' ∧ ∀ k, k ∉ c.vars → Keeps s s' L L' k := by
    rintro i s' hv ⟨L', S', hk⟩
    exact ⟨L', S', fun k h => hk k (by rw [hv] at h; simpa using h)⟩
  cases c with
  | cmd c => exact S.exec E c e
  | newMsgPack i b cached pick =>
    exact one rfl (S.parsed i cached pick (fun c h I _ hc => msgPack_newOk E (b.length + 1) I hc b) rfl e)
  | newJson i b cached pick junk => exact one rfl (S.parsedJson E i b cached pick junk e)
  | newBson i hid b cached pick =>
    exact one rfl (S.parsed i cached pick (fun c h I O hc => bsonRootH_newOk E hid I O hc b) rfl e)
  | loadMsgPack i π b =>
    simp only [PCmd.exec, Res.bind_eq_ok] at e
    obtain ⟨q, e1, e⟩ := e
    split at e
    · exact one rfl (S.loadMsgPack E e1 ‹_› b e)
    · cases e; exact skip
  | loadJson i π b junk =>
    simp only [PCmd.exec, Res.bind_eq_ok] at e
    obtain ⟨q, e1, e⟩ := e
    split at e
    · exact one rfl (S.loadJson E e1 ‹_› b junk e)
    · cases e; exact skip
  | loadBson i π hid b =>
    simp only [PCmd.exec, Res.bind_eq_ok] at e
    obtain ⟨q, e1, e⟩ := e
    split at e
    · exact one rfl (S.loadBson E e1 ‹_› hid b e)
    · cases e; exact skip
  | forcePath i π t path =>
    refine one rfl (S.onNode e (fun q h' X w F h5 e1 g m => ?_))
    cases hf : Heap.forcePath E s.heap q t path with
    | ok r => rw [hf] at e1; cases e1; exact forcePath_in g h5 m hf
    | err _ => rw [hf] at e1; cases e1
    | panic => rw [hf] at e1; cases e1
    | loop => rw [hf] at e1; cases e1
  | newYaml i b cached pick p =>
    simp only [PCmd.exec] at e
    split at e
    · cases e; exact skip
    · exact one rfl (S.newYaml E i b cached pick p ‹_› e)
  | loadYaml i π b pick p =>
    simp only [PCmd.exec, Res.bind_eq_ok] at e
    obtain ⟨q, e1, e⟩ := e
    split at e
    · rename_i hc
      simp only [Bool.and_eq_true, Bool.not_eq_true', decide_eq_false_iff_not] at hc
      exact one rfl (S.loadYaml E e1 hc.1 b pick p hc.2 e)
    · cases e; exact skip
  | setValue i π d => exact one rfl (S.onNode e (fun q h' X w F h5 e1 g m => Reflect.setValue_in g h5 m d e1))
  | setKeyvalue i π k d own => exact one rfl (S.onNode e (fun q h' X w F h5 e1 g m => Reflect.setKeyvalue_in d g h5 m (Sound.cacheOf own h5 g m) k e1))
  | setIndexvalue i π n d own => exact one rfl (S.onNode e (fun q h' X w F h5 e1 g m => Reflect.setIndexvalue_in d g h5 m (Sound.cacheOf own h5 g m) n e1))
  | merge i π j ρ g f =>
    simp only [PCmd.exec, Res.bind_eq_ok] at e
    obtain ⟨p, e1, q, e2, e⟩ := e
    split at e
    · cases e; exact skip
    · rename_i hq
      simp only [Bool.or_eq_true, not_or, beq_iff_eq, Bool.not_eq_true', Bool.not_eq_false] at hq
      simp only [Res.bind_eq_ok] at e
      obtain ⟨h', e3, e⟩ := e
      cases e
      have h5 : 5 ≤ p := by
        have := hq.1.1
        rw [shared_iff] at this
        omega
      exact one rfl (S.merge E hq.1.2 e1 h5 e2 g f hq.2 e3)
  | newFrom i d cached pick =>
    simp only [PCmd.exec, Res.bind_eq_ok] at e
    obtain ⟨r, e1, e⟩ := e
    cases e
    exact one rfl (S.newFrom E i d cached pick e1)

end

theorem Sound.pexecAll {E : Env} : ∀ {prog : List PCmd} {s : St} {L : Nat → Option Live} {s' : St}, Sound s L → Heap.pexecAll E s prog = .ok s' → ∃ L', Sound s' L'
  | [], s, L, s', S, e => by cases e; exact ⟨L, S⟩
  | c :: cs, s, L, s', S, e => by
    simp only [Heap.pexecAll, Res.bind_eq_ok] at e
    obtain ⟨s1, e1, e2⟩ := e
    obtain ⟨L1, S1, -⟩ := S.pexec E c e1
    exact S1.pexecAll e2

/-- What a program does not mention stays as it is. -/
theorem Sound.pkeepsAll {E : Env} (k : Nat) : ∀ {prog : List PCmd} {s : St} {L : Nat → Option Live} {s' : St}, (∀ c ∈ prog, k ∉ c.vars) → Sound s L →
    Heap.pexecAll E s prog = .ok s' → ∃ L', Sound s' L' ∧ Keeps s s' L L' k
  | [], s, L, s', _, S, e => by cases e; exact ⟨L, S, rfl, rfl, fun _ _ _ _ => rfl⟩
  | c :: cs, s, L, s', hk, S, e => by
    simp only [Heap.pexecAll, Res.bind_eq_ok] at e
    obtain ⟨s1, e1, e2⟩ := e
    obtain ⟨L1, S1, K1⟩ := S.pexec E c e1
    obtain ⟨L2, S2, K2⟩ := S1.pkeepsAll k (fun c hc => hk c (List.mem_cons_of_mem _ hc)) e2
    have h1 := K1 k (hk c (List.mem_cons_self ..))
    refine ⟨L2, S2, by rw [K2.live, h1.live], by rw [K2.var, h1.var], fun x hx q hq => ?_⟩
    rw [K2.mem x (by rw [h1.live]; exact hx) q hq, h1.mem x hx q hq]

end Dxs.Heap
