import Verif.Yaml.Refuse
import Verif.Props.YamlBlock

/-!
# C117: what a refused YAML text leaves behind
-/

namespace Dxs.Yaml

open Dxs.Heap

variable {E : Env} {pick : Heap → Option Nat} {k : Nat}

theorem good_dt {h : Heap} {p : Ptr} {v : Val} {F : List Ptr} (g : Good h (some p) v F) : (h.mem p).dt = v.vt := rep_dt g.rep

/-- What a refused line has done when nothing is open: a root has been made, and if the line has a `-`, an empty string in it. -/
theorem parseLine_refused_first {line : Bytes} {sp : Nat} {s : St} (I : Inv s.h) {e : Err} (h : parseLine E pick k line sp s = .err e) (hs : opened s sp = []) :
    ((line.drop sp).head? = some 45 ∧ ¬dashed line sp s ∧ parseLineErr pick line sp s = s.h) ∨
    ((line.drop sp).head? = some 45 ∧ dashed line sp s ∧ ∃ q, (newRoot pick .array s).p.root = some q ∧
      parseLineErr pick line sp s = (setIndexCached (newRoot pick .array s).h q (-1) .string (newRoot pick .array s).p.cache).2) ∨
    ((line.drop sp).head? ≠ some 45 ∧ parseLineErr pick line sp s = (newRoot pick .object s).h) := by
  have en : ∀ t, newRoot pick t { s with p := { s.p with stack := [] } } = newRoot pick t s := by
    intro t; unfold newRoot; split <;> rfl
  unfold parseLine at h
  unfold parseLineErr
  dsimp only at h ⊢
  cases hc : (line.drop sp).head? with
  | none => rw [hc] at h; cases h
  | some c =>
    rw [hc] at h
    dsimp only at h ⊢
    unfold opened at hs
    dsimp only at hs
    rw [hs] at h ⊢
    split at h
    · cases h
    split
    · rename_i h45
      rw [if_pos h45] at h
      rcases Res.bind_eq_err.1 h with h | ⟨_, -, h⟩
      · obtain ⟨r, hr, g⟩ := newRoot_array pick I
        have hd : ((newRoot pick .array s).h.mem r).dt = .array := good_dt g
        unfold parseArray at h
        unfold parseArrayErr
        by_cases hcond : afterDash line sp ≠ [] ∧ (afterDash line sp).head? ≠ some 32 ∧ (sp : Int) ≤ s.p.last
        · left
          refine ⟨by rw [h45], fun hd => hd.elim hcond.2.1 (fun hd => by have := hcond.2.2; omega), if_pos hcond⟩
        · right; left
          have hd' : dashed line sp s := by
            by_cases hl : afterDash line sp = []
            · exfalso
              revert h
              unfold afterDash at hl
              rw [hl]
              simp only [ne_eq, not_true_eq_false, false_and, if_false, if_true, en]
              rw [show (newRoot pick .array s).p.stack = [⟨false, -1, r⟩] by rw [hr]]
              have : trim ([] : Bytes) = [] := rfl
              simp only [List.head?_cons, this, hd, reduceCtorEq, if_false, if_true]
              exact id
            · by_cases h32 : (afterDash line sp).head? = some 32
              · exact Or.inl h32
              · exact Or.inr (Int.not_le.1 fun hc => hcond ⟨hl, h32, hc⟩)
          refine ⟨by rw [h45], hd', r, by rw [hr], ?_⟩
          refine (if_neg hcond).trans ?_
          simp only [arrStart, if_true, en]
          rw [show (newRoot pick .array s).p.stack = [⟨false, -1, r⟩] by rw [hr]]
          simp only [List.head?_cons, hd, reduceCtorEq, if_false]
      · cases h
    · rename_i h45
      rw [if_neg h45] at h
      right; right
      refine ⟨by simpa using h45, ?_⟩
      obtain ⟨r, hr, g⟩ := newRoot_holds E pick I
      have hd : ((newRoot pick .object s).h.mem r).dt = .object := good_dt g
      unfold parseObjectErr
      simp only [objStart, if_true, en]
      rw [show (newRoot pick .object s).p.stack = [⟨false, -1, r⟩] by rw [hr]]
      simp only [List.head?_cons, hd, if_true]
      repeat' split
      all_goals rfl

/-! ## C117 -/

/-- C117 for the parser: a text is refused in one of its lines; the lines before have been parsed as if the text ended there. -/
theorem C117_lines {data : Bytes} {f : Nat} {s : St} {e : Err} (h : parse E pick f data s = .err e) :
    ∃ pre line post s1, data = pre ++ line ++ post ∧ 10 ∉ line ∧ (post = [] ∨ post.head? = some 10) ∧
      (pre = [] ∧ s1 = { s with p := { s.p with last := -1 } } ∨ pre.getLast? = some 10 ∧ parse E pick f pre s = .ok s1) ∧
      parseLine E pick f line (depth line) s1 = .err e ∧ parseErr E pick f data s = parseLineErr pick line (depth line) s1 := parse_refused h

theorem dropWhile_prefix {p : UInt8 → Bool} {data pre rest : Bytes} (h : data.dropWhile p = pre ++ rest) (hn : pre ≠ []) : pre.dropWhile p = pre := by
  cases pre with
  | nil => exact absurd rfl hn
  | cons a r =>
    have := List.head?_dropWhile_not p data
    rw [h] at this
    simp only [List.cons_append, List.head?_cons] at this
    simp [this]

/-- C117 for `LoadFromYaml`: when a text is refused at a line, the memory - and with it the value - is what loading the lines before it gives, unless the line has a `-`
or is `<<:` without a name below a value that is no object, or its indentation has closed all values. Missing: these lines, see `parseLine_refused`, `parseLine_refused_first` for
what they do, and `C117_item_counterexample`, `C117_merge_counterexample`. -/
theorem C117_load_partial {f : Nat} {p : Parser} {h : Heap} {v : Ptr} {data : Bytes} {e : Err} (he : loadFromYaml E pick f p.reset h v data = .err e) :
    ∃ pre line post s1, data.dropWhile isWB = pre ++ line ++ post ∧ 10 ∉ line ∧ (post = [] ∨ post.head? = some 10) ∧ parseLine E pick f line (depth line) s1 = .err e ∧
      (pre = [] ∧ s1.h = (loadStart p.reset h v data).h ∨ pre.getLast? = some 10 ∧ loadYamlMem E pick f p h v pre = some s1.h) ∧
      ∀ n r, (line.drop (depth line)).head? ≠ some 45 → opened s1 (depth line) = n :: r → ¬badMerge line (depth line) s1 n → loadYamlMem E pick f p h v data = some s1.h := by
  have hm : loadYamlMem E pick f p h v data = some (parseErr E pick f (data.dropWhile isWB) (loadStart p.reset h v data)) := by
    unfold loadYamlMem; rw [he]
  have hstart : parse E pick f (data.dropWhile isWB) (loadStart p.reset h v data) = .err e := by
    unfold loadFromYaml at he
    unfold loadStart
    dsimp only at he ⊢
    cases hc : (data.dropWhile isWB).head? with
    | none => rw [hc] at he; cases he
    | some c =>
      rw [hc] at he
      rcases Res.bind_eq_err.1 he with he | ⟨_, -, he⟩
      · exact he
      · cases he
  obtain ⟨pre, line, post, s1, hd, h10, hpost, hpre, hl, hmem⟩ := parse_refused hstart
  refine ⟨pre, line, post, s1, hd, h10, hpost, hl, ?_, fun n r h45 ho hb => ?_⟩
  · rcases hpre with ⟨rfl, rfl⟩ | ⟨hp10, hok⟩
    · exact Or.inl ⟨rfl, rfl⟩
    · right
      have hne : pre ≠ [] := by intro h0; rw [h0] at hp10; cases hp10
      refine ⟨hp10, ?_⟩
      rw [List.append_assoc] at hd
      have hw := dropWhile_prefix hd hne
      have hhead : (data.dropWhile isWB).head? = pre.head? := by rw [hd]; cases pre <;> simp_all
      have hs : loadStart p.reset h v data = loadStart p.reset h v pre := by
        unfold loadStart; rw [hhead, hw]
      rw [hs] at hok
      have : loadFromYaml E pick f p.reset h v pre = .ok { s1 with p := s1.p.reset } := by
        unfold loadFromYaml
        unfold loadStart at hok
        dsimp only at hok ⊢
        rw [hw] at hok ⊢
        cases hc : pre.head? with
        | none => exact absurd (by simpa using hc) hne
        | some c =>
          rw [hc] at hok
          dsimp only at hok ⊢
          rw [hok]; rfl
      unfold loadYamlMem
      rw [this]
  · rw [hm, hmem]
    rcases parseLine_refused hl ho with ⟨h1, -⟩ | ⟨h1, -⟩ | ⟨-, h1, -⟩ | ⟨-, -, h1⟩
    · exact absurd h1 h45
    · exact absurd h1 h45
    · exact absurd h1 hb
    · rw [h1]

/-- What is in a new object after `LoadFromYaml`, also after an error. -/
def afterLoad (data : Bytes) : Option Val :=
  let r := newValue (Heap.init id) .object
  (loadYamlMem envEx (fun _ => none) 20 .fresh r.2 r.1 data).map (fun h => peek 6 h (some r.1))

/-- Whether `LoadFromYaml` refuses a text. -/
def refuses (data : Bytes) : Bool :=
  let r := newValue (Heap.init id) .object
  match loadFromYaml envEx (fun _ => none) 20 Parser.fresh.reset r.2 r.1 data with
  | .err _ => true
  | _ => false

/-- `- a`, `- : b`: the second line is refused, but an empty string is there for it. -/
theorem C117_item_counterexample : refuses (text [[45, 32, 97], [45, 32, 58, 32, 98]]) = true ∧ afterLoad (text [[45, 32, 97], [45, 32, 58, 32, 98]]) = some (.arr [.str [97], .str []]) ∧
    afterLoad (text [[45, 32, 97]]) = some (.arr [.str [97]]) := ⟨by rfl, by rfl, by rfl⟩

/-- `a: x`, `  <<:`: the second line is refused, but the value of the first one is lost. -/
theorem C117_merge_counterexample : refuses (text [[97, 58, 32, 120], [32, 32, 60, 60, 58]]) = true ∧ afterLoad (text [[97, 58, 32, 120], [32, 32, 60, 60, 58]]) = some (.obj false [([97], .obj false [])]) ∧
    afterLoad (text [[97, 58, 32, 120]]) = some (.obj false [([97], .str [120])]) := ⟨by rfl, by rfl, by rfl⟩

/-- `a: x`, `b`, `c: y`: the second line is refused, the first one is there, the third is not. -/
example : refuses (text [[97, 58, 32, 120], [98, 49], [99, 58, 32, 121]]) = true ∧ afterLoad (text [[97, 58, 32, 120], [98, 49], [99, 58, 32, 121]]) = some (.obj false [([97], .str [120])]) := ⟨by rfl, by rfl⟩

end Dxs.Yaml
