import Verif.Yaml.Pool
import Verif.Heap.Self
import Verif.EnvEx

/-!
# C45, C46, C47, C73: the YAML parser ends, does not panic, does not depend on earlier parses, leaves other values alone
-/

namespace Dxs.Yaml

open Dxs.Heap

/-! ## The specification -/

/-- A parser that the pool may hand out: a new one, or any parser that was given back. -/
inductive FromPool : Parser → Prop
  | fresh : FromPool .fresh
  | used (p : Parser) : FromPool p.reset

/-- The last line (what follows the last newline) has not exactly one byte. -/
def LastOk (data : Bytes) : Prop := ∀ l, (linesOf data).getLast? = some l → l.length ≠ 1

/-- No line of two or more bytes is all spaces. -/
def NoBlank (data : Bytes) : Prop := ∀ l ∈ linesOf data, 2 ≤ l.length → ∃ c ∈ l, c ≠ 32

instance (data : Bytes) : Decidable (NoBlank data) := by unfold NoBlank; infer_instance

instance (data : Bytes) : Decidable (LastOk data) :=
  match h : (linesOf data).getLast? with
  | none => isTrue (fun l hl => by rw [h] at hl; cases hl)
  | some l => if hl : l.length ≠ 1 then isTrue (fun m hm => by rw [h] at hm; cases hm; exact hl) else isFalse (fun g => hl (g l h))

/-- What every run of the parser leaves: a set of nodes, all of them free before (or in `X`), closed under children, without nil children and
without cycles, with the result in it; every node in use before is as before. -/
def Tidy (X : List Ptr) (h : Heap) (r : Option Ptr) (h' : Heap) : Prop :=
  (∀ q, ¬Avail h q → q ∉ X → h'.mem q = h.mem q) ∧
  ∃ S : Ptr → Prop, (∀ q, S q → q ∈ X ∨ Avail h q) ∧ (∀ q, S q → ∀ b ∈ Node.kids (h'.mem q), ∃ r, b = some r ∧ S r) ∧
    (∀ q, S q → Acc (fun a b => some a ∈ Node.kids (h'.mem b)) q) ∧ ∀ q, r = some q → S q

/-! ## Starting -/

theorem FromPool.empty {p : Parser} (h : FromPool p) : p.root = none ∧ p.cache = none ∧ p.stack = [] ∧ p.uses = [] := by
  cases h <;> exact ⟨rfl, rfl, rfl, rfl⟩

theorem fine_start {h : Heap} (I : Inv h) {p : Parser} (hp : FromPool p) (uc : Bool) : Fine [] h (fun _ => False) { p := { p with useCache := uc }, h := h } := by
  obtain ⟨h1, h2, h3, h4⟩ := hp.empty
  refine ⟨⟨I, fun _ => id, fun _ _ _ => rfl, nofun, nofun, nofun, nofun, nofun, nofun⟩, ?_, ?_, ?_, ?_⟩
  · intro n hn; simp [h3] at hn
  · intro n hn; simp [h4] at hn
  · intro d hd; simp [h2] at hd
  · intro d hd; simp [h1] at hd

theorem fine_load {h : Heap} {L : Nat → Option Live} (W : WInv h L) {i : Nat} {x : Live} (hx : L i = some x) {p : Parser} (hp : FromPool p) {t : VT} (ht : t ≠ .binary) :
    Fine [x.p] (Heap.clear h x.p) (fun q => q = x.p) { p := { p with useCache := false, root := some x.p, cache := ((Heap.reset (Heap.clear h x.p) x.p t).mem x.p).owner, stack := ⟨false, -1, x.p⟩ :: p.stack }, h := Heap.reset (Heap.clear h x.p) x.p t } := by
  obtain ⟨h1, h2, h3, h4⟩ := hp.empty
  have hd := (W.clear hx).1.held i _ (assign_same _ _ _)
  have W1 := (W.clear hx).1
  obtain ⟨v, g⟩ := hd.good
  have hlive := g.live x.p (by simp)
  have h5 := hd.ge
  have hm : ∀ q, (Heap.reset (Heap.clear h x.p) x.p t).mem q = if q = x.p then ((Heap.clear h x.p).mem x.p).reset t else (Heap.clear h x.p).mem q := by
    intro q
    unfold Heap.reset
    rw [if_neg (by rw [shared_iff]; simp only at h5; omega)]
    by_cases e : q = x.p
    · subst e; simp
    · rw [if_neg e, Heap.upd, set_mem_ne _ _ e]
  have hb := Blank.reset ((Heap.clear h x.p).mem x.p) t
  have hk : Node.kids ((Heap.reset (Heap.clear h x.p) x.p t).mem x.p) = [] := by rw [hm, if_pos rfl]; exact kids_blank hb
  have hI : Inv (Heap.reset (Heap.clear h x.p) x.p t) := W1.inv.reset _ _
  have hA : ∀ q, Avail (Heap.reset (Heap.clear h x.p) x.p t) q ↔ Avail (Heap.clear h x.p) q := by
    intro q; unfold Heap.reset; split <;> exact Iff.rfl
  refine ⟨⟨hI, fun q => (hA q).mp, ?_, ?_, ?_, ?_, ?_, ?_, ?_⟩, ?_, ?_, ?_, ?_⟩
  · intro q _ hq
    rw [hm, if_neg (by simpa using hq)]
  · rintro q rfl; exact h5
  · rintro q rfl; exact Or.inl (by simp)
  · rintro q rfl; rw [hA]; exact hlive
  · rintro q rfl; rw [hk]; simp
  · rintro q rfl
    refine Acc.intro _ (fun y hy => ?_)
    unfold KidOf at hy
    rw [hk] at hy
    simp at hy
  · rintro q rfl; rw [hm, if_pos rfl, hb.dt]; exact ht
  · intro n hn
    simp only [h3, List.mem_singleton] at hn
    subst hn; rfl
  · intro u hu; simp [h4] at hu
  · intro d hd; exact hI.owner _ d hd
  · intro r hr; cases hr; rfl

theorem Fine.tidy {X : List Ptr} {h0 : Heap} {S : Ptr → Prop} {s : St} (a : Fine X h0 S s) : Tidy X h0 s.p.root s.h :=
  ⟨a.young.mem, S, a.young.new, a.young.isSome, a.young.acc, a.root⟩

/-! ## C45 -/

/-- C45, partly: every text terminates whose last line has not exactly one byte and which does not contain `<<`. With enough fuel there is one
result, whatever the memory and the pools. -/
theorem C45_yaml_terminates_partial (E : Env) (pick : Heap → Option Nat) {h : Heap} (I : Inv h) {p : Parser} (hp : FromPool p) (data : Bytes) (uc : Bool)
    (hl : LastOk data) (hm : ¬[60, 60] <:+: data) :
    ∃ r, r ≠ .loop ∧ ∃ N, ∀ f, N ≤ f → newValueFromYaml E pick f p h data uc = r := by
  obtain ⟨r, hr, N, hN⟩ := parse_stops E pick data (fine_start I hp uc) hl hm
  unfold newValueFromYaml
  refine ⟨r.bind (fun s => .ok (s.p.root, { s with p := s.p.reset })), ?_, N, fun f hf => ?_⟩
  · cases r <;> simp_all [Res.bind]
  · dsimp only at hN; rw [hN f hf]; rfl

/-- C45, partly, for `LoadFromYaml`. -/
theorem C45_load_terminates_partial (E : Env) (pick : Heap → Option Nat) {h : Heap} {L : Nat → Option Live} (W : WInv h L) {i : Nat} {x : Live} (hx : L i = some x)
    {p : Parser} (hp : FromPool p) (data : Bytes) (hl : LastOk (data.dropWhile isWB)) (hm : ¬[60, 60] <:+: data) :
    ∃ r, r ≠ .loop ∧ ∃ N, ∀ f, N ≤ f → loadFromYaml E pick f p h x.p data = r := by
  have hm' : ¬[60, 60] <:+: data.dropWhile isWB := fun h => hm (h.trans (List.dropWhile_suffix _).isInfix)
  unfold loadFromYaml
  dsimp only
  rcases hd : (data.dropWhile isWB).head? with _ | c
  · exact ⟨_, by simp, 0, fun _ _ => rfl⟩
  · obtain ⟨r, hr, N, hN⟩ := parse_stops E pick _ (fine_load W hx hp (t := if c = 45 then .array else .object) (by split <;> decide)) hl hm'
    refine ⟨r.bind (fun s => .ok { s with p := s.p.reset }), ?_, N, fun f hf => ?_⟩
    · cases r <;> simp_all [Res.bind]
    · dsimp only at hN ⊢; rw [hN f hf]; rfl

/-- A text whose last line is one byte without newline never gives a value, whatever comes before. -/
theorem C45_one_byte_line_no_value (E : Env) (pick : Heap → Option Nat) (f : Nat) (p : Parser) (h : Heap) (data : Bytes) (uc : Bool)
    (hl : ∃ l, (linesOf data).getLast? = some l ∧ l.length = 1) (x : Option Ptr × St) : newValueFromYaml E pick f p h data uc ≠ .ok x := by
  unfold newValueFromYaml
  intro hx
  obtain ⟨s, h1, -⟩ := Res.bind_eq_ok.mp hx
  exact parse_never E pick f data _ s hl h1

/-- C45 is false: a text of one byte other than a newline never ends. -/
theorem C45_one_byte_loops (E : Env) (pick : Heap → Option Nat) (f : Nat) (p : Parser) (h : Heap) (uc : Bool) {c : UInt8} (hc : c ≠ 10) :
    newValueFromYaml E pick f p h [c] uc = .loop := by
  have : ∀ s, parse E pick f [c] s = .loop := by
    intro s
    unfold parse
    rw [if_neg (by simp)]
    cases f with
    | zero => rfl
    | succ f =>
      rw [parseLoop]
      have h1 : ([c].drop 0).takeWhile (· != 10) = [c] := by simp [hc]
      rw [h1]
      simp only [List.drop_zero, List.length_singleton, Nat.lt_irrefl, if_false]
      rw [if_pos (by omega), if_neg (by omega)]
      exact parseLoop_behind E pick (f + 1) [c] f _
  unfold newValueFromYaml
  rw [this]
  rfl

/-- `a: &x`, ` b: 1`, ` <<: *x`. -/
abbrev selfText : Bytes := [97, 58, 32, 38, 120, 10, 32, 98, 58, 32, 49, 10, 32, 60, 60, 58, 32, 42, 120]

/-- The parser before the last line of `selfText`. -/
abbrev selfParser : Parser :=
  { first := false, useCache := true, last := 1, root := some 5, cache := some 0, stack := [⟨false, 1, 7⟩, ⟨false, 0, 6⟩, ⟨false, -1, 5⟩], uses := [([120], 6)] }

abbrev selfStart : St := { p := { Parser.fresh with useCache := true, last := -1 }, h := Heap.init id }

/-- C45 is false for `<<` too: this text adds the members of `a` to `a` without end. -/
theorem C45_self_merge_loops (f : Nat) : newValueFromYaml envEx (fun _ => none) f .fresh (Heap.init id) selfText true = .loop := by
  match f with
  | 0 => rfl
  | 1 => rfl
  | 2 => rfl
  | f + 3 =>
    have hfine := fine_start (Heap.inv_init id) FromPool.fresh true
    obtain ⟨s1, H, e1, e2, hd, hk, hv⟩ : ∃ s1 H, parseLine envEx (fun _ => none) (f + 3) [97, 58, 32, 38, 120] 0 selfStart = .ok s1 ∧
        parseLine envEx (fun _ => none) (f + 3) [32, 98, 58, 32, 49] 1 s1 = .ok ⟨selfParser, H⟩ ∧
        (H.mem 6).dt = .object ∧ (H.mem 6).kvs = [([98], some 7)] ∧ (H.mem 7).dt = .string := ⟨_, _, rfl, rfl, rfl, rfl, rfl⟩
    obtain ⟨S1, -, a1⟩ := parseLine_fine (s := selfStart) ⟨hfine.young, hfine.stack, hfine.uses, hfine.cache, hfine.root⟩ e1
    obtain ⟨S2, -, a2⟩ := parseLine_fine a1 e2
    have hS6 : S2 6 := a2.uses ([120], 6) (by simp [selfParser])
    have hS7 : S2 7 := a2.stack ⟨false, 1, 7⟩ (by simp [selfParser])
    have hl : addFrom (f + 3) H 6 (some 6) (some 0) = .loop := by
      refine addFrom_self _ ⟨a2.young.inv, by omega, a2.young.live 6 hS6, fun d hd => ?_, ?_⟩ hd (by rw [hk]; simp)
      · exact a2.cache d (by simpa [selfParser] using hd)
      · rw [hk]
        intro kv hkv
        simp only [List.mem_singleton] at hkv
        subst hkv
        exact ⟨7, rfl, by decide, a2.young.live 7 hS7, Or.inl hv⟩
    have e3 : parseLine envEx (fun _ => none) (f + 3) [32, 60, 60, 58, 32, 42, 120] 1 ⟨selfParser, H⟩ = .loop := by
      have : splitKv [60, 60, 58, 32, 42, 120] = ([60, 60], [42, 120], true) := by decide
      have hc : cutComment [60, 60, 58, 32, 42, 120] = [60, 60, 58, 32, 42, 120] := by decide
      unfold parseLine
      simp [selfParser, hc, parseObject, this, objSame, mergeRef, refName, getUse, hl, hd]
    have h1 : ∀ s, parseLoop envEx (fun _ => none) (f + 3) selfText (f + 3) 0 s =
      (parseLine envEx (fun _ => none) (f + 3) [97, 58, 32, 38, 120] 0 s).bind (parseLoop envEx (fun _ => none) (f + 3) selfText (f + 2) 6) := fun _ => rfl
    have h2 : ∀ s, parseLoop envEx (fun _ => none) (f + 3) selfText (f + 2) 6 s =
      (parseLine envEx (fun _ => none) (f + 3) [32, 98, 58, 32, 49] 1 s).bind (parseLoop envEx (fun _ => none) (f + 3) selfText (f + 1) 12) := fun _ => rfl
    have h3 : ∀ s, parseLoop envEx (fun _ => none) (f + 3) selfText (f + 1) 12 s =
      (parseLine envEx (fun _ => none) (f + 3) [32, 60, 60, 58, 32, 42, 120] 1 s).bind Res.ok := fun _ => rfl
    unfold newValueFromYaml parse
    rw [if_neg (by simp [selfText])]
    show Res.bind (parseLoop _ _ _ _ _ _ selfStart) _ = _
    rw [h1, e1]
    dsimp only [Res.bind]
    rw [h2, e2]
    dsimp only [Res.bind]
    rw [h3, e3]
    rfl

/-- The hypotheses of the theorems hold of this text: aliases, a comment, a list, no newline at the end. -/
example : LastOk [97, 58, 32, 38, 120, 10, 32, 32, 98, 58, 32, 49, 10, 10, 99, 58, 32, 42, 120, 32, 35, 107, 10, 100, 58, 10, 32, 32, 45, 32, 121] ∧ NoBlank [97, 58, 32, 38, 120, 10, 32, 32, 98, 58, 32, 49, 10, 10, 99, 58, 32, 42, 120, 32, 35, 107, 10, 100, 58, 10, 32, 32, 45, 32, 121] := by decide

/-! ## C46 -/

/-- C46, partly: no text without a blank line and without `*` panics, whatever the memory and the pools. -/
theorem C46_yaml_no_panic_partial (E : Env) (pick : Heap → Option Nat) (f : Nat) {h : Heap} (I : Inv h) {p : Parser} (hp : FromPool p) (data : Bytes) (uc : Bool)
    (hb : NoBlank data) (hs : 42 ∉ data) : newValueFromYaml E pick f p h data uc ≠ .panic := by
  have h1 := (parse_ends (b := False) (o := True) E pick data (fine_start I hp uc) hb nofun nofun (fun _ => hs)).2.1 trivial f
  unfold newValueFromYaml
  dsimp only at h1
  generalize parse E pick f data _ = r at h1 ⊢
  cases r <;> first | exact absurd rfl h1 | exact nofun

/-- C46, partly, for `LoadFromYaml`. -/
theorem C46_load_no_panic_partial (E : Env) (pick : Heap → Option Nat) (f : Nat) {h : Heap} {L : Nat → Option Live} (W : WInv h L) {i : Nat} {x : Live} (hx : L i = some x)
    {p : Parser} (hp : FromPool p) (data : Bytes) (hb : NoBlank (data.dropWhile isWB)) (hs : 42 ∉ data) : loadFromYaml E pick f p h x.p data ≠ .panic := by
  unfold loadFromYaml
  dsimp only
  rcases hd : (data.dropWhile isWB).head? with _ | c
  · exact nofun
  · have h1 := (parse_ends (b := False) (o := True) E pick _ (fine_load W hx hp (t := if c = 45 then .array else .object) (by split <;> decide)) hb nofun nofun
      (fun _ hm => hs ((List.dropWhile_suffix _).mem hm))).2.1 trivial f
    dsimp only at h1 ⊢
    generalize parse E pick f _ _ = r at h1 ⊢
    cases r <;> first | exact absurd rfl h1 | exact nofun

/-- The hypotheses hold of this text: an anchor, a comment, an empty line, a list, no newline at the end. -/
example : NoBlank [97, 58, 32, 38, 120, 10, 32, 32, 98, 58, 32, 49, 10, 10, 99, 58, 32, 121, 32, 35, 107, 10, 100, 58, 10, 32, 32, 45, 32, 121] ∧
    42 ∉ [97, 58, 32, 38, 120, 10, 32, 32, 98, 58, 32, 49, 10, 10, 99, 58, 32, 121, 32, 35, 107, 10, 100, 58, 10, 32, 32, 45, 32, 121] := by decide

/-- C46 is false without a blank line: `a: &x`, `  c: d`, `  b: *x` copies `a` into its own member `b`, which has no value yet. -/
theorem C46_self_alias_panics (f : Nat) : newValueFromYaml envEx (fun _ => none) (f + 4) .fresh (Heap.init id)
    [97, 58, 32, 38, 120, 10, 32, 32, 99, 58, 32, 100, 10, 32, 32, 98, 58, 32, 42, 120, 10] true = .panic := rfl

/-- The same with `<<`: `a: &x`, `  b:`, `    d: e`, `    <<: *x` adds the members of `a` to `b`, which is one of them. -/
theorem C46_ancestor_merge_panics (f : Nat) : newValueFromYaml envEx (fun _ => none) (f + 6) .fresh (Heap.init id)
    [97, 58, 32, 38, 120, 10, 32, 32, 98, 58, 10, 32, 32, 32, 32, 100, 58, 32, 101, 10, 32, 32, 32, 32, 60, 60, 58, 32, 42, 120, 10] true = .panic := rfl

/-- C46 is false: a text of two or more spaces panics. -/
theorem C46_blank_panics (E : Env) (pick : Heap → Option Nat) (f : Nat) (p : Parser) (h : Heap) (uc : Bool) (n : Nat) :
    newValueFromYaml E pick (f + 1) p h (List.replicate (n + 2) 32) uc = .panic := by
  have : ∀ s, parse E pick (f + 1) (List.replicate (n + 2) 32) s = .panic := by
    intro s
    unfold parse
    rw [if_neg (by simp [List.replicate_succ]), parseLoop]
    have h1 : ((List.replicate (n + 2) 32).drop 0).takeWhile (· != (10 : UInt8)) = List.replicate (n + 2) 32 := by
      simp [List.takeWhile_replicate]
    rw [h1]
    simp only [List.drop_zero, List.length_replicate, Nat.lt_irrefl, if_false]
    rw [if_neg (by omega), parseLine_blank]
    · rfl
    · simp [List.takeWhile_replicate]
  unfold newValueFromYaml
  rw [this]
  rfl

/-! ## C47 -/

/-- C47: the result does not depend on which parser the pool hands out. -/
theorem C47_yaml_history (E : Env) (pick : Heap → Option Nat) (f : Nat) (h : Heap) {p p' : Parser} (hp : FromPool p) (hp' : FromPool p') (data : Bytes) (uc : Bool) :
    (newValueFromYaml E pick f p h data uc).bind (fun x => .ok (x.1, x.2.h)) = (newValueFromYaml E pick f p' h data uc).bind (fun x => .ok (x.1, x.2.h)) := by
  obtain ⟨h1, h2, h3, h4⟩ := hp.empty
  obtain ⟨g1, g2, g3, g4⟩ := hp'.empty
  unfold newValueFromYaml parse
  split
  · simp [h1, g1]
    rfl
  · have key := parseLoop_alike E pick f data f 0 { p := { p with useCache := uc, last := -1 }, h := h } { p := { p' with useCache := uc, last := -1 }, h := h }
      (Or.inr ⟨p'.first, by simp [wf, h1, h2, h3, h4, g1, g2, g3, g4], by simp [NoMap, h3]⟩)
    rcases key with e | ⟨s, b, e1, e2, -⟩
    · dsimp only; rw [e]
    · dsimp only; rw [e1, e2]; rfl

/-- C47 for `LoadFromYaml`. -/
theorem C47_load_history (E : Env) (pick : Heap → Option Nat) (f : Nat) (h : Heap) (v : Ptr) {p p' : Parser} (hp : FromPool p) (hp' : FromPool p') (data : Bytes) :
    (loadFromYaml E pick f p h v data).bind (fun s => .ok s.h) = (loadFromYaml E pick f p' h v data).bind (fun s => .ok s.h) := by
  obtain ⟨h1, h2, h3, h4⟩ := hp.empty
  obtain ⟨g1, g2, g3, g4⟩ := hp'.empty
  unfold loadFromYaml parse
  dsimp only
  rcases hd : (data.dropWhile isWB).head? with _ | c
  · rfl
  · have hne : data.dropWhile isWB ≠ [] := by intro e; rw [e] at hd; cases hd
    dsimp only
    rw [if_neg hne, if_neg hne]
    generalize Heap.reset (Heap.clear h v) v (if c = 45 then .array else .object) = h'
    have key := parseLoop_alike E pick f (data.dropWhile isWB) f 0
      { p := { p with useCache := false, root := some v, cache := (h'.mem v).owner, stack := ⟨false, -1, v⟩ :: p.stack, last := -1 }, h := h' }
      { p := { p' with useCache := false, root := some v, cache := (h'.mem v).owner, stack := ⟨false, -1, v⟩ :: p'.stack, last := -1 }, h := h' }
      (Or.inr ⟨p'.first, by simp [wf, h3, h4, g3, g4], by simp [NoMap, h3]⟩)
    rcases key with e | ⟨s, b, e1, e2, -⟩
    · rw [e]
    · rw [e1, e2]; rfl

/-- Parsers given back differ: this text leaves `ifFirstObjEle` set. -/
example : (newValueFromYaml envEx (fun _ => none) 9 .fresh (Heap.init id) [45, 32, 97, 58, 32, 98] true).bind (fun x => .ok x.2.p) = .ok { Parser.fresh with first := true, useCache := true, last := 0 } := by
  decide

/-! ## C73 -/

/-- C73: `NewValueFromYaml` leaves all nodes in use untouched and gives a finite structure without nil and without cycles, for every text. -/
theorem C73_yaml_tidy (E : Env) (pick : Heap → Option Nat) (f : Nat) {h : Heap} (I : Inv h) {p : Parser} (hp : FromPool p) (data : Bytes) (uc : Bool) {r : Option Ptr} {s : St}
    (he : newValueFromYaml E pick f p h data uc = .ok (r, s)) : Tidy [] h r s.h := by
  obtain ⟨s1, h1, h2⟩ := Res.bind_eq_ok.mp he
  obtain ⟨S, -, a⟩ := parse_fine (fine_start I hp uc) h1
  cases h2
  exact a.tidy

/-- C73 for `LoadFromYaml`: every other value in use stays as it is. -/
theorem C73_load_tidy (E : Env) (pick : Heap → Option Nat) (f : Nat) {h : Heap} {L : Nat → Option Live} (W : WInv h L) {i : Nat} {x : Live} (hx : L i = some x)
    {p : Parser} (hp : FromPool p) (data : Bytes) {s : St} (he : loadFromYaml E pick f p h x.p data = .ok s) :
    Tidy [x.p] (Heap.clear h x.p) (some x.p) s.h ∧ ∀ j y, j ≠ i → L j = some y → ∀ v, Rep h.mem v (some y.p) y.F → Rep s.h.mem v (some y.p) y.F := by
  have W1 := (W.clear hx).1
  have T : Tidy [x.p] (Heap.clear h x.p) (some x.p) s.h := by
    unfold loadFromYaml at he
    dsimp only at he
    rcases hd : (data.dropWhile isWB).head? with _ | c
    · rw [hd] at he
      cases he
      have hk : Node.kids ((Heap.clear h x.p).mem x.p) = [] := by
        have hmem : (Heap.clear h x.p).mem x.p = (h.mem x.p).clear := by
          unfold Heap.clear
          rw [upd_mem_same]
          cases (h.mem x.p).owner <;> rfl
        rw [hmem]
        unfold Node.clear Node.kids
        cases (h.mem x.p).dt <;> rfl
      refine ⟨fun _ _ _ => rfl, fun q => q = x.p, ?_, ?_, ?_, ?_⟩
      · rintro q rfl; simp
      · rintro q rfl; rw [hk]; simp
      · rintro q rfl
        refine Acc.intro _ (fun y hy => ?_)
        rw [hk] at hy
        simp at hy
      · rintro q hq; cases hq; rfl
    · rw [hd] at he
      obtain ⟨s1, h1, h2⟩ := Res.bind_eq_ok.mp he
      obtain ⟨S, hS, a⟩ := parse_fine (fine_load W hx hp (t := if c = 45 then .array else .object) (by split <;> decide)) h1
      cases h2
      exact ⟨a.young.mem, S, a.young.new, a.young.isSome, a.young.acc, fun q hq => by cases hq; exact hS _ rfl⟩
  refine ⟨T, fun j y hj hy v hr => ?_⟩
  have hy' : assign L i (some ⟨x.p, [x.p], x.cs⟩) j = some y := by rw [assign_ne _ _ hj]; exact hy
  obtain ⟨w, g⟩ := (W1.held j y hy').good
  have hne : ∀ q ∈ y.F, q ≠ x.p := fun q hq e => (W1.apart j i y ⟨x.p, [x.p], x.cs⟩ hj hy' (assign_same _ _ _)).nodes q hq (by simp [e])
  refine rep_frame hr ⟨fun q hq => ?_, ?_⟩
  · rw [T.1 q (g.live q hq) (by simpa using hne q hq), clear_mem_ne (hne q hq)]
  · intro q hq
    have h5 := (W.held i x hx).ge
    have hx5 : q ≠ x.p := by omega
    have hav : ¬Avail (Heap.clear h x.p) q := by
      rintro (h1 | ⟨c, hc, h1⟩)
      · have := W1.inv.next5; omega
      · have := (W1.inv.range c hc q (List.mem_of_mem_drop h1)).1; omega
    rw [T.1 q hav (by simpa using hx5), clear_mem_ne hx5]

end Dxs.Yaml
