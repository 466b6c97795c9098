import Verif.Yaml.Nested
import Verif.Props.Yaml

/-!
# C48, C74: what YAML mappings parse to
-/

namespace Dxs.Yaml

open Dxs.Heap

/-! ## The specification -/

/-- The text of these lines; the newline behind the last one may be missing if that line has two bytes or more. -/
def TextOf (ls : List Bytes) (data : Bytes) : Prop :=
  data = (ls.map (· ++ [10])).flatten ∨ (data ++ [10] = (ls.map (· ++ [10])).flatten ∧ ∀ l, ls.getLast? = some l → 2 ≤ l.length)

/-- The value under `r` in the memory `h` is an object whose members are `m`, names as `ValueByName` compares them. -/
def IsObj (E : Env) (h : Heap) (r : Ptr) (m : List (Bytes × Val)) : Prop := ∃ ku kvs F, Good h (some r) (.obj ku kvs) F ∧ members E (.obj ku kvs) = m

/-! ## Texts -/

theorem linesOf_line {l : Bytes} (h : 10 ∉ l) : linesOf l = [l] := by
  induction l with
  | nil => rfl
  | cons c r ih =>
    simp only [List.mem_cons, not_or] at h
    rw [linesOf, if_neg (Ne.symm h.1), ih h.2]

theorem linesOf_append {l : Bytes} (h : 10 ∉ l) (d : Bytes) : linesOf (l ++ 10 :: d) = l :: linesOf d := by
  induction l with
  | nil => simp [linesOf]
  | cons c r ih =>
    simp only [List.mem_cons, not_or] at h
    rw [List.cons_append, linesOf, if_neg (Ne.symm h.1), ih h.2]

theorem linesOf_text : ∀ (ls : List Bytes) (data : Bytes), ls ≠ [] → (∀ l ∈ ls, 10 ∉ l) → data ++ [10] = (ls.map (· ++ [10])).flatten → linesOf data = ls
  | [], _, h, _, _ => absurd rfl h
  | [l], data, _, hn, h => by
    have h' : data = l := by simpa using h
    rw [h']
    exact linesOf_line (hn l List.mem_cons_self)
  | l :: l' :: ls, data, _, hn, h => by
    have h' : data ++ [10] = l ++ 10 :: ((l' :: ls).map (· ++ [10])).flatten := by rw [h]; simp
    obtain ⟨d, hd⟩ : ∃ d, ((l' :: ls).map (· ++ [10])).flatten = d ++ [10] := by
      have hl := congrArg List.getLast? h'
      have hne : ((l' :: ls).map (· ++ [10])).flatten ≠ [] := by simp
      rcases List.eq_nil_or_concat ((l' :: ls).map (· ++ [10])).flatten with e | ⟨d, x, e⟩
      · exact absurd e hne
      · rw [e] at hl ⊢
        simp [List.getLast?_append, List.getLast?_cons] at hl
        exact ⟨d, by simp [hl]⟩
    rw [hd] at h'
    have : data = l ++ 10 :: d := by
      have : data ++ [10] = (l ++ 10 :: d) ++ [10] := by rw [h']; simp
      exact (List.append_inj' this rfl).1
    rw [this, linesOf_append (hn l List.mem_cons_self), linesOf_text (l' :: ls) d (by simp) (fun x hx => hn x (List.mem_cons_of_mem _ hx)) hd.symm]

theorem parse_text (E : Env) (pick : Heap → Option Nat) {f : Nat} {ls : List Bytes} {data : Bytes} (ht : TextOf ls data) (hne : ls ≠ []) (hn : ∀ l ∈ ls, 10 ∉ l) (hf : ls.length ≤ f) (s : St) :
    parse E pick f data s = runLines E pick f ls { s with p := { s.p with last := -1 } } := by
  have hd : ∀ data, data = (ls.map (· ++ [10])).flatten → data ≠ [] := by
    rintro d rfl
    cases ls with
    | nil => exact absurd rfl hne
    | cons a r => simp
  unfold parse
  rcases ht with e | ⟨e, h2⟩
  · rw [if_neg (hd data e)]
    exact parseLoop_lines E pick f data ls [] f _ (by simpa using e) hne hn hf
  · have hlines := linesOf_text ls data hne hn e
    have hdn : data ≠ [] := by
      rintro rfl
      have := h2 [] (by rw [← hlines]; rfl)
      simp at this
    rw [if_neg hdn, ← parseLoop_newline E pick f data f 0 _ (by omega) (by rw [List.drop_zero, hlines]; exact h2)]
    exact parseLoop_lines E pick f (data ++ [10]) ls [] f _ (by simpa using e) hne hn hf

theorem lines_ne : ∀ (m : YMap) (ind : Nat), m.names ≠ [] → m.lines ind ≠ []
  | .nil, _, h => absurd rfl h
  | .skip .., _, _ => by simp [YMap.lines]
  | .leaf .., _, _ => by simp [YMap.lines]
  | .sub .., _, _ => by simp [YMap.lines]

theorem names_scalars : ∀ (m : YMap) kvs, m.scalars = some kvs → m.names = kvs.map Prod.fst
  | .nil, _, h => by cases h; rfl
  | .skip _ r, kvs, h => names_scalars r kvs h
  | .leaf k v _ r, kvs, h => by
    obtain ⟨kvr, hr, rfl⟩ := Option.map_eq_some_iff.mp h
    simp [YMap.names, names_scalars r kvr hr]
  | .sub .., _, h => by cases h

/-- The state in which the first entry finds the parser, for `NewValueFromYaml`. -/
theorem new_start (E : Env) (pick : Heap → Option Nat) (f : Nat) {h : Heap} (I : Inv h) {p : Parser} (hp : FromPool p) (uc : Bool) {m : YMap} {ind : Nat} (hm : m.Plain) (hn : m.names ≠ [])
    {data : Bytes} (ht : TextOf (m.lines ind) data) (hf : (m.lines ind).length ≤ f) :
    ∃ s S r, newValueFromYaml E pick f p h data uc = (runLines E pick f (m.lines ind) s).bind (fun s => .ok (s.p.root, { s with p := s.p.reset })) ∧
      Fine [] h S s ∧ Pos s ind (-1) r [] ∧ s.p.root = some r ∧ Good s.h (some r) (.obj false []) [r] := by
  obtain ⟨h1, h2, h3, h4⟩ := hp.empty
  have a := fine_start I hp uc
  have a' : Fine [] h (fun _ => False) { p := { p with useCache := uc, last := -1 }, h := h } := ⟨a.young, a.stack, a.uses, a.cache, a.root⟩
  obtain ⟨S, -, a1, -⟩ := newRoot_fine pick (t := .object) rfl (by decide) a'
  obtain ⟨r, hr, g⟩ := newRoot_holds E pick (s := { p := { p with useCache := uc, last := -1 }, h := h }) I
  refine ⟨_, S, r, ?_, a1, ⟨by omega, Or.inl ⟨by rw [hr], by rw [hr]⟩⟩, by rw [hr], g⟩
  unfold newValueFromYaml
  rw [parse_text E pick ht (lines_ne m ind hn) (lines_nl m ind hm) hf, ← root_first E pick f (s := { p := { p with useCache := uc, last := -1 }, h := h }) I h3 rfl ind m hm hn]
  rfl

/-- The state in which the first entry finds the parser, for `LoadFromYaml`. -/
theorem load_start (E : Env) (pick : Heap → Option Nat) (f : Nat) {h : Heap} {L : Nat → Option Live} (W : WInv h L) {i : Nat} {x : Live} (hx : L i = some x)
    {p : Parser} (hp : FromPool p) {m : YMap} (hm : m.Plain) (hn : m.names ≠ []) {data : Bytes} (ht : TextOf (m.lines 0) data) (hf : (m.lines 0).length ≤ f)
    {c : UInt8} (hc : data.head? = some c) (hw : isWB c = false) (h45 : c ≠ 45) :
    ∃ s S, loadFromYaml E pick f p h x.p data = (runLines E pick f (m.lines 0) s).bind (fun s => .ok { s with p := s.p.reset }) ∧
      Fine [x.p] (Heap.clear h x.p) S s ∧ Pos s 0 (-1) x.p [] ∧ Good s.h (some x.p) (.obj false []) [x.p] := by
  obtain ⟨h1, h2, h3, h4⟩ := hp.empty
  have a := fine_load W hx hp (t := .object) (by decide)
  have hd : data.dropWhile isWB = data := by
    cases data with
    | nil => rfl
    | cons b r => cases hc; simp [List.dropWhile_cons, hw]
  have hh := (W.clear hx).1.held i _ (assign_same _ _ _)
  obtain ⟨v, g⟩ := hh.good
  have u := reset_upd g hh.ge .object
  refine ⟨{ p := { p with useCache := false, root := some x.p, cache := ((Heap.reset (Heap.clear h x.p) x.p .object).mem x.p).owner, stack := ⟨false, -1, x.p⟩ :: p.stack, last := -1 }, h := Heap.reset (Heap.clear h x.p) x.p .object },
    _, ?_, ⟨a.young, a.stack, a.uses, a.cache, a.root⟩, ⟨by omega, Or.inl ⟨by simp [h3], rfl⟩⟩, u.good⟩
  unfold loadFromYaml
  dsimp only
  rw [hd, hc]
  dsimp only
  rw [if_neg h45, parse_text E pick ht (lines_ne m 0 hn) (lines_nl m 0 hm) hf]
  rfl

theorem holds_nil (E : Env) : Holds E (.obj false []) [] := ⟨⟨_, _, rfl⟩, rfl, List.Pairwise.nil, by simp⟩

theorem Holds.isObj {E : Env} {x : Val} {l : List (Bytes × Val)} (H : Holds E x l) {h : Heap} {r : Ptr} {F : List Ptr} (g : Good h (some r) x F) : IsObj E h r l := by
  obtain ⟨ku, kvs, rfl⟩ := H.obj
  exact ⟨ku, kvs, F, g, H.mem⟩

/-! ## C48 -/

/-- C48: a text of lines `k: v` parses to the object with these entries in order, names that repeat having their last value. -/
theorem C48_yaml_flat {E : Env} (L : KeyLaws E) (pick : Heap → Option Nat) (f : Nat) {h : Heap} (I : Inv h) {p : Parser} (hp : FromPool p) (uc : Bool) {m : YMap} {ind : Nat} (hm : m.Plain)
    {kvs : List (Bytes × Bytes)} (hs : m.scalars = some kvs) (hn : kvs ≠ []) {data : Bytes} (ht : TextOf (m.lines ind) data) (hf : (m.lines ind).length ≤ f) :
    ∃ r s, newValueFromYaml E pick f p h data uc = .ok (some r, s) ∧ IsObj E s.h r (Assoc.lastWins E.keyMatch (kvs.map (fun kv => (kv.1, scalar E kv.2)))) := by
  obtain ⟨s, S, r, e, a, hpos, hr, g⟩ := new_start E pick f I hp uc hm (by rw [names_scalars m kvs hs]; simpa using hn) ht hf
  obtain ⟨s', x', F', e', -, hr', u, H⟩ := flat L pick f ind m a hpos g (holds_nil E) hm kvs hs
  refine ⟨r, { s' with p := s'.p.reset }, ?_, H.isObj u.good⟩
  rw [e, e', ← hr, ← hr']
  rfl

/-- C48 with different names: exactly the entries, in order. -/
theorem C48_yaml_flat_distinct {E : Env} (L : KeyLaws E) (pick : Heap → Option Nat) (f : Nat) {h : Heap} (I : Inv h) {p : Parser} (hp : FromPool p) (uc : Bool) {m : YMap} {ind : Nat} (hm : m.Plain)
    {kvs : List (Bytes × Bytes)} (hs : m.scalars = some kvs) (hn : kvs ≠ []) (hd : Assoc.Distinct E.keyMatch kvs) {data : Bytes} (ht : TextOf (m.lines ind) data) (hf : (m.lines ind).length ≤ f) :
    ∃ r s, newValueFromYaml E pick f p h data uc = .ok (some r, s) ∧ IsObj E s.h r (kvs.map (fun kv => (kv.1, scalar E kv.2))) := by
  have := C48_yaml_flat L pick f I hp uc hm hs hn ht hf
  rwa [Assoc.lastWins_distinct (by unfold Assoc.Distinct at hd ⊢; simpa [Function.comp_def] using hd)] at this

/-- C48 for `LoadFromYaml`. -/
theorem C48_load_flat {E : Env} (K : KeyLaws E) (pick : Heap → Option Nat) (f : Nat) {h : Heap} {L : Nat → Option Live} (W : WInv h L) {i : Nat} {x : Live} (hx : L i = some x)
    {p : Parser} (hp : FromPool p) {m : YMap} (hm : m.Plain) {kvs : List (Bytes × Bytes)} (hs : m.scalars = some kvs) (hn : kvs ≠ []) {data : Bytes} (ht : TextOf (m.lines 0) data)
    (hf : (m.lines 0).length ≤ f) {c : UInt8} (hc : data.head? = some c) (hw : isWB c = false) (h45 : c ≠ 45) :
    ∃ s, loadFromYaml E pick f p h x.p data = .ok s ∧ IsObj E s.h x.p (Assoc.lastWins E.keyMatch (kvs.map (fun kv => (kv.1, scalar E kv.2)))) := by
  obtain ⟨s, S, e, a, hpos, g⟩ := load_start E pick f W hx hp hm (by rw [names_scalars m kvs hs]; simpa using hn) ht hf hc hw h45
  obtain ⟨s', x', F', e', -, hr', u, H⟩ := flat K pick f 0 m a hpos g (holds_nil E) hm kvs hs
  refine ⟨{ s' with p := s'.p.reset }, ?_, H.isObj u.good⟩
  rw [e, e']
  rfl

theorem neat_of {b : Bytes} {c d : UInt8} (h1 : b.head? = some c) (h2 : b.getLast? = some d) (hc : isSp c = false) (hd : isSp d = false) : Neat b := by
  simp only [isSp, Bool.or_eq_false_iff, beq_eq_false_iff_ne] at hc hd
  exact ⟨⟨c, h1, by grind⟩, ⟨d, h2, by grind⟩⟩

/-- `a: x # c`, an empty line, `# c`, ` a: true`, `b: y z`. -/
example : (YMap.leaf [97] [120] [32, 35, 99] (.skip [] (.skip [35, 99] (.leaf [97] [116, 114, 117, 101] [] (.leaf [98] [121, 32, 122] [] .nil))))).Plain ∧
    (YMap.leaf [97] [120] [32, 35, 99] (.skip [] (.skip [35, 99] (.leaf [97] [116, 114, 117, 101] [] (.leaf [98] [121, 32, 122] [] .nil))))).scalars =
      some [([97], [120]), ([97], [116, 114, 117, 101]), ([98], [121, 32, 122])] ∧
    Assoc.lastWins envEx.keyMatch [([97], scalar envEx [120]), ([97], scalar envEx [116, 114, 117, 101]), ([98], scalar envEx [121, 32, 122])] = [([97], .tru), ([98], .str [121, 32, 122])] := by
  refine ⟨⟨⟨?_, ?_, ?_, ?_, ?_, ?_, ?_, ?_⟩, Or.inr ⟨[99], rfl, by decide⟩, ⟨by decide, Or.inl (by decide)⟩, ⟨by decide, Or.inr ⟨0, [99], rfl⟩⟩, ⟨?_, ?_, ?_, ?_, ?_, ?_, ?_, ?_⟩, Or.inl rfl, ⟨?_, ?_, ?_, ?_, ?_, ?_, ?_, ?_⟩, Or.inl rfl, trivial⟩, rfl, by decide⟩
  all_goals first | exact neat_of rfl rfl rfl rfl | decide

/-! ## C74 -/

/-- C74: a text of nested mappings, every deeper level indented by any number of spaces, parses to the nested object. -/
theorem C74_yaml_nested {E : Env} (L : KeyLaws E) (pick : Heap → Option Nat) (f : Nat) {h : Heap} (I : Inv h) {p : Parser} (hp : FromPool p) (uc : Bool) {m : YMap} {ind : Nat} (hm : m.Plain)
    (hd : m.Different E) (hn : m.names ≠ []) {data : Bytes} (ht : TextOf (m.lines ind) data) (hf : (m.lines ind).length ≤ f) :
    ∃ r s l, newValueFromYaml E pick f p h data uc = .ok (some r, s) ∧ IsObj E s.h r l ∧ Fits E l m := by
  obtain ⟨s, S, r, e, a, hpos, hr, g⟩ := new_start E pick f I hp uc hm hn ht hf
  obtain ⟨s', x', F', l1, e', -, -, hr', u, H, fit⟩ := block L pick f m ind a hpos g (holds_nil E) hm hd (by simp)
  refine ⟨r, { s' with p := s'.p.reset }, _, ?_, H.isObj u.good, fit⟩
  rw [e, e', ← hr, ← hr']
  rfl

/-- C74 for `LoadFromYaml`. -/
theorem C74_load_nested {E : Env} (K : KeyLaws E) (pick : Heap → Option Nat) (f : Nat) {h : Heap} {L : Nat → Option Live} (W : WInv h L) {i : Nat} {x : Live} (hx : L i = some x)
    {p : Parser} (hp : FromPool p) {m : YMap} (hm : m.Plain) (hd : m.Different E) (hn : m.names ≠ []) {data : Bytes} (ht : TextOf (m.lines 0) data)
    (hf : (m.lines 0).length ≤ f) {c : UInt8} (hc : data.head? = some c) (hw : isWB c = false) (h45 : c ≠ 45) :
    ∃ s l, loadFromYaml E pick f p h x.p data = .ok s ∧ IsObj E s.h x.p l ∧ Fits E l m := by
  obtain ⟨s, S, e, a, hpos, g⟩ := load_start E pick f W hx hp hm hn ht hf hc hw h45
  obtain ⟨s', x', F', l1, e', -, -, hr', u, H, fit⟩ := block K pick f m 0 a hpos g (holds_nil E) hm hd (by simp)
  refine ⟨{ s' with p := s'.p.reset }, _, ?_, H.isObj u.good, fit⟩
  rw [e, e']
  rfl

/-- `a:`, `   b:`, `    c: x`, `   d: y`, `e: z`: three levels, and back by two. -/
example : (YMap.sub [97] [] 2 (.sub [98] [] 0 (.leaf [99] [120] [] .nil) (.leaf [100] [121] [] .nil)) (.leaf [101] [122] [] .nil)).Plain ∧
    (YMap.sub [97] [] 2 (.sub [98] [] 0 (.leaf [99] [120] [] .nil) (.leaf [100] [121] [] .nil)) (.leaf [101] [122] [] .nil)).Different envEx := by
  refine ⟨⟨⟨?_, ?_, ?_, ?_, ?_, ?_⟩, Or.inl rfl, ⟨⟨?_, ?_, ?_, ?_, ?_, ?_⟩, Or.inl rfl, ⟨⟨?_, ?_, ?_, ?_, ?_, ?_, ?_, ?_⟩, Or.inl rfl, trivial⟩, ⟨⟨?_, ?_, ?_, ?_, ?_, ?_, ?_, ?_⟩, Or.inl rfl, trivial⟩⟩, ⟨⟨?_, ?_, ?_, ?_, ?_, ?_, ?_, ?_⟩, Or.inl rfl, trivial⟩⟩, ?_⟩
  all_goals first | exact neat_of rfl rfl rfl rfl | decide | skip
  simp [YMap.Different, YMap.names, Env.keyMatch, envEx]

/-- What the parser makes of that text. -/
example : (newValueFromYaml envEx (fun _ => none) 9 .fresh (Heap.init id) [97, 58, 10, 32, 32, 32, 98, 58, 10, 32, 32, 32, 32, 99, 58, 32, 120, 10, 32, 32, 32, 100, 58, 32, 121, 10, 101, 58, 32, 122] true).bind
    (fun x => .ok (x.1.map (fun r => (x.2.h.mem r).kvs.map (fun kv => (kv.1, kv.2.map (fun q => ((x.2.h.mem q).kvs.map Prod.fst, (x.2.h.mem q).str))))))) =
      .ok (some [([97], some ([[98], [100]], [])), ([101], some ([], [122]))]) := by
  rfl

end Dxs.Yaml
