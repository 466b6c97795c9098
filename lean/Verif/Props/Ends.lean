import Verif.Load.Ends
import Verif.Props.Ask

/-!
# C122: every program of statements comes to an end

The recursions of the model have a bound; `.loop` says that the bound was reached, and the code then either has not ended yet or never ends. `C122` says that with the bounds
the statements are given (the length of the text, the height of the value) this never happens, whatever was done before: nothing in memory is ever circular.
-/

namespace Dxs.Heap

/-! ## The answers -/

theorem format_ne_loop (E : Env) (st : Json.Style) (d : Bool) (v : Val) : Json.value2FormatJson E st d v ≠ .loop := by
  intro e
  obtain ⟨h1, h2⟩ := Json.C65_format_panics E st d v
  by_cases hp : Json.value2FormatJson E st d v = .panic
  · rw [hp] at e; cases e
  · obtain ⟨t, ht⟩ := h2 (fun x => hp (h1.2 x)); rw [ht] at e; cases e

theorem json_ne_loop (E : Env) (st : Json.Style) (d : Bool) (v : Val) : Json.value2Json E st d v ≠ .loop := by
  intro e
  obtain ⟨h1, h2⟩ := Json.C65_json_panics E st d v
  by_cases hp : Json.value2Json E st d v = .panic
  · rw [hp] at e; cases e
  · obtain ⟨t, ht⟩ := h2 (fun x => hp (h1.2 x)); rw [ht] at e; cases e

theorem bson_ne_loop (E : Env) (v : Val) : Bson.toBson E v [] ≠ .loop := by
  intro e
  by_cases hn : v = .nil
  · subst hn; cases e
  · have e' : Bson.writeValue E v [] = .loop := by
      cases v <;> first | exact absurd rfl hn | exact e
    obtain ⟨h1, h2⟩ := Bson.writeValue_panic E v []
    by_cases hs : Bson.HasShort v
    · rw [h1 hs] at e'; cases e'
    · obtain ⟨o, ho⟩ := h2 hs; rw [ho] at e'; cases e'

theorem textOf_ne_loop (E : Env) (v : Val) : textOf E v ≠ .loop := by
  cases v with
  | obj ku kvs => exact format_ne_loop E _ _ _
  | arr xs => exact format_ne_loop E _ _ _
  | bin e b =>
    show binShow E e b ≠ .loop
    unfold binShow
    dsimp only
    by_cases hb : b.length < (if e = 19 then 16 else 12)
    · rw [if_pos hb]; exact fun h => nomatch h
    · rw [if_neg hb]; exact fun h => nomatch h
  | _ => intro h; cases h

theorem rbind_ne_loop {α β : Type} {r : Res α} {g : α → Res β} (h : r ≠ .loop) (hg : ∀ a, g a ≠ .loop) : r.bind g ≠ .loop := by
  cases r with
  | ok a => exact hg a
  | loop => exact absurd rfl h
  | _ => intro e; cases e

theorem Get.ends {τ : Type} (E : Env) (C : Clock τ) (v : Val) (g : Get) : g.onTree E C v ≠ .loop := by
  cases g with
  | string => exact rbind_ne_loop (textOf_ne_loop E v) (fun _ => by simp)
  | json f st d =>
    refine rbind_ne_loop ?_ (fun _ => by simp)
    split
    · exact format_ne_loop E st d v
    · exact json_ne_loop E st d v
  | bson => exact rbind_ne_loop (bson_ne_loop E v) (fun _ => by simp)
  | _ => simp [Get.onTree]

theorem Get.behind_ends {τ : Type} (E : Env) (C : Clock τ) (d : Ans τ) (g : Get) : ∀ (path : List Bytes) (v : Val), (g.behind E C d path v).1 ≠ .loop
  | [], v => Get.ends E C v g
  | k :: path, v => by
    simp only [Get.behind]
    split
    · simp
    · split
      · simp
      · simp
      · exact Get.behind_ends E C d g path _

theorem Ask.ends {τ : Type} (E : Env) (C : Clock τ) (v : Val) (a : Ask τ) : (a.onTree E C v).1 ≠ .loop := by
  cases a with
  | here g => exact Get.ends E C v g
  | path ps d g => exact Get.behind_ends E C d g ps v
  | index i d g =>
    simp only [Ask.onTree]
    split
    · simp
    · simp
    · exact Get.ends E C _ g
  | keyName i => simp [Ask.onTree]
  | item i => simp [Ask.onTree]

/-! ## Statements with output -/

/-- The bounds of a statement with output: the YAML texts as before, and the depth given to `Equal` is at least that of its left value. -/
def OCmd.deep {τ : Type} (s : St) : OCmd τ → Prop
  | .run c => c.linesOk
  | .ask _ _ _ => True
  | .same i π _ _ f => ∀ p v, s.walk i π = .ok p → seenAt s.heap p = some v → height v ≤ f

/-- A statement with output comes to an end. -/
theorem OCmd.ends {τ : Type} {s : St} {L : Nat → Option Live} {T : Trees} (hT : Holds s T) (S : Sound s L) (E : Env) (C : Clock τ) (c : OCmd τ) (hc : c.deep s) :
    c.exec E C s ≠ .loop := by
  cases c with
  | run c =>
    simp only [OCmd.exec]
    exact Bson.bind_ne_loop (PCmd.ends hT S E c hc) (fun _ _ => by simp)
  | ask i π a =>
    simp only [OCmd.exec]
    refine Bson.bind_ne_loop (walk_ne_loop s i π) (fun q e => Bson.bind_ne_loop ?_ (fun _ _ => by simp))
    obtain ⟨v, -, h1, -⟩ := hT.asked S E C e a
    rw [h1]
    exact Ask.ends E C v a
  | same i π j ρ f =>
    simp only [OCmd.exec]
    refine Bson.bind_ne_loop (walk_ne_loop s i π) (fun p e1 => Bson.bind_ne_loop (walk_ne_loop s j ρ) (fun q e2 => ?_))
    by_cases hij : i ≠ j
    · rw [if_pos (Or.inl hij)]
      refine Bson.bind_ne_loop (fun e => ?_) (fun _ _ => by simp)
      obtain ⟨v, w, hv, hw, h⟩ := hT.compared S E hij e1 e2 f
      rw [e] at h
      have hp := hT.walk S i π
      rw [e1] at hp
      obtain ⟨v', F, hv', g, -⟩ := hp
      rw [hv] at hv'
      cases hv'
      exact absurd (hc p v e1 g.seenAt) (Nat.not_le.2 h)
    · have hp := hT.walk S i π
      have hq := hT.walk S j ρ
      rw [e1] at hp
      rw [e2] at hq
      obtain ⟨v, F, hv, g, -⟩ := hp
      obtain ⟨w, G, hw, g', -⟩ := hq
      rw [g.calm, g'.calm]
      by_cases hs : (settled v && settled w) = true
      · rw [if_pos (Or.inr hs)]
        refine Bson.bind_ne_loop (fun e => ?_) (fun _ _ => by simp)
        simp only [Bool.and_eq_true] at hs
        have := equal_settled E f s.heap (some p) (some q) v w F G S.world.inv g.rep g'.rep (settled_iff.1 hs.1) (settled_iff.1 hs.2)
        rw [e] at this
        exact absurd (hc p v e1 g.seenAt) (Nat.not_le.2 this)
      · rw [if_neg (by simp only [hs, hij, or_self, not_false_eq_true, Bool.false_eq_true])]
        simp

/-! ## Programs -/

theorem ends_all (E : Env) : ∀ (prog : List PCmd) {s : St} {L : Nat → Option Live} {T : Trees}, Holds s T → Sound s L → (∀ c ∈ prog, c.linesOk) → pexecAll E s prog ≠ .loop
  | [], _, _, _, _, _, _ => by simp [pexecAll]
  | c :: cs, s, L, T, hT, S, hl => by
    rw [pexecAll]
    refine Bson.bind_ne_loop (PCmd.ends hT S E c (hl c (List.mem_cons_self ..))) (fun s1 e1 => ?_)
    obtain ⟨T1, -, hT1⟩ := hT.pexec S E c e1
    obtain ⟨L1, S1, -⟩ := S.pexec E c e1
    exact ends_all E cs hT1 S1 (fun c hc => hl c (List.mem_cons_of_mem _ hc))

/-- C122, partly: every program from the empty state ends: it runs through, panics or stops with an error. Missing: YAML texts whose last line has one byte
(`C122_yaml_counterexample`), and what the programs leave out: YAML texts with `*` and copies of a value into itself. -/
theorem C122_programs_partial (E : Env) (grow : Nat → Nat) (prog : List PCmd) (hl : ∀ c ∈ prog, c.linesOk) : pexecAll E (St.init grow) prog ≠ .loop :=
  ends_all E prog (Holds.init grow) (Sound.init grow) hl

/-- C122, partly, for one statement after any program. -/
theorem C122_statement_partial (E : Env) (grow : Nat → Nat) (prog : List PCmd) {s : St} (h : pexecAll E (St.init grow) prog = .ok s) (c : PCmd) (hl : c.linesOk) :
    c.exec E s ≠ .loop := by
  have key : ∀ (prog : List PCmd) {s0 s : St} {L : Nat → Option Live} {T : Trees}, Holds s0 T → Sound s0 L → pexecAll E s0 prog = .ok s → c.exec E s ≠ .loop := by
    intro prog
    induction prog with
    | nil => intro s0 s L T hT S e; cases e; exact PCmd.ends hT S E c hl
    | cons d ds ih =>
      intro s0 s L T hT S e
      rw [pexecAll] at e
      obtain ⟨s1, e1, e2⟩ := Res.bind_eq_ok.1 e
      obtain ⟨T1, -, hT1⟩ := hT.pexec S E d e1
      obtain ⟨L1, S1, -⟩ := S.pexec E d e1
      exact ih hT1 S1 e2
  exact key prog (Holds.init grow) (Sound.init grow) h

/-- Every depth given to `Equal` is enough when the statement is reached. -/
def Deep {τ : Type} (E : Env) (C : Clock τ) : St → List (OCmd τ) → Prop
  | _, [] => True
  | s, c :: cs => c.deep s ∧ ∀ o s', c.exec E C s = .ok (o, s') → Deep E C s' cs

/-- C122, partly, for programs that print: they end if the depths given to `Equal` are enough. Missing: as in `C122_programs_partial`. -/
theorem C122_printing_partial {τ : Type} (E : Env) (C : Clock τ) (grow : Nat → Nat) (prog : List (OCmd τ)) (hd : Deep E C (St.init grow) prog) :
    oexecAll E C (St.init grow) prog ≠ .loop := by
  have key : ∀ (prog : List (OCmd τ)) {s : St} {L : Nat → Option Live} {T : Trees}, Holds s T → Sound s L → Deep E C s prog → oexecAll E C s prog ≠ .loop := by
    intro prog
    induction prog with
    | nil => intro s L T _ _ _; simp [oexecAll]
    | cons c cs ih =>
      intro s L T hT S h
      rw [oexecAll]
      refine Bson.bind_ne_loop (OCmd.ends hT S E C c h.1) (fun r e1 => ?_)
      obtain ⟨o, s1⟩ := r
      obtain ⟨T1, -, hT1, L1, S1⟩ := hT.oexec S E C c e1
      exact Bson.bind_ne_loop (ih hT1 S1 (h.2 o s1 e1)) (fun _ _ => by simp)
  exact key prog (Holds.init grow) (Sound.init grow) hd

/-- C122, for a question in any state: it never loops. -/
theorem C122_question {τ : Type} {s : St} {T : Trees} {L : Nat → Option Live} (hT : Holds s T) (S : Sound s L) (E : Env) (C : Clock τ) (i : Nat) (π : List Nat) (a : Ask τ) :
    (OCmd.ask i π a).exec E C s ≠ .loop :=
  OCmd.ends hT S E C _ trivial

/-- C122 is false: `NewValueFromYaml` of one byte other than a newline never returns, whatever the bounds and whatever was done before. -/
theorem C122_yaml_counterexample (E : Env) (s : St) (i : Nat) (c : UInt8) (hc : c ≠ 10) (hs : c ≠ 42) (cached : Bool) (pick : Heap → Option Nat) (q : Yaml.Parser) :
    (PCmd.newYaml i [c] cached pick q).exec E s = .loop := by
  show (if 42 ∈ [c] then _ else s.newYaml E i [c] cached pick q) = _
  rw [if_neg (by simpa using Ne.symm hs)]
  unfold St.newYaml
  rw [Yaml.C45_one_byte_loops E pick _ _ _ _ hc]

/-- A program with a text refused after three bytes, a value put twice, a load into what was there, and a merge: it ends, here by running through. -/
example : ∃ s, pexecAll envEx (St.init id)
    [.newJson 0 [123, 34, 97] true none (fun _ => []), .newMsgPack 1 [129, 161, 97, 1] true none, .newYaml 2 [97, 58, 32, 98, 98] true (fun _ => none) Yaml.Parser.fresh,
     .cmd (.putKey 1 [] [98] 2), .loadMsgPack 1 [] [129, 161, 98, 145, 2], .cmd (.free 1 0)] = .ok s :=
  ⟨_, rfl⟩

/-- `Deep` can be had: a program with `Equal` of two values and depth 2. -/
example : Deep envEx noClock (St.init id)
    [.run (.newMsgPack 0 [145, 1] false none), .run (.newMsgPack 1 [145, 1] false none), .same 0 [] 1 [] 2, .ask 0 [] (.here .bson)] := by
  refine ⟨trivial, fun o s1 h1 => ?_⟩
  cases h1
  refine ⟨trivial, fun o s2 h2 => ?_⟩
  cases h2
  refine ⟨fun p v hp hv => ?_, fun o3 s3 _ => ⟨trivial, fun _ _ _ => trivial⟩⟩
  cases hp
  cases hv
  decide

end Dxs.Heap

namespace Dxs.Yaml
open Dxs.Heap (Heap)

/-- C45, partly, with the bound: a text without `*` whose last line has not exactly one byte ends within as many steps as it has bytes. `<<` may occur. -/
theorem C45_nostar_partial (E : Env) (pick : Heap → Option Nat) (f : Nat) (p : Parser) (h : Heap) (data : Bytes) (uc : Bool) (hs : 42 ∉ data) (hl : LastOk data)
    (hf : data.length ≤ f) : newValueFromYaml E pick f p h data uc ≠ .loop :=
  Bson.bind_ne_loop (parse_ne_loop E pick hs hl f hf _) (fun _ _ => by simp)

end Dxs.Yaml
