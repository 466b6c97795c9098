import Verif.Yaml.Loop
import Verif.Bson.Robust

/-!
# Texts without `*`: one step of fuel for every byte is enough
-/

namespace Dxs.Yaml
open Dxs.Heap
open Bson (bind_ne_loop)

theorem binText_ne_loop (E : Env) (x : UInt8) (b : Bytes) : Json.binText E x b ≠ .loop := by
  unfold Json.binText
  have h : ∀ n, Json.upTo n b ≠ .loop := by intro n; unfold Json.upTo; split <;> simp
  split
  · exact bind_ne_loop (h _) (fun _ _ => by simp)
  · split <;> exact bind_ne_loop (h _) (fun _ _ => by simp)

theorem getString_ne_loop (E : Env) (n : Node) : (getString E .panic n).1 ≠ .loop := by
  unfold getString
  split
  case h_9 => exact binText_ne_loop E _ _
  all_goals simp

theorem setKeyCached_ne_loop (E : Env) (h : Heap) (p : Ptr) (name : Bytes) (t : VT) (c : Option CId) : setKeyCached E h p name t c ≠ .loop := by
  unfold setKeyCached
  dsimp only
  split
  · simp
  · split
    · split
      · simp
      · split
        · simp
        · generalize (objIndex E (if (h.mem p).dt = .object then h else reset h p .object) p name).2 = h2
          split <;> simp
    · simp

theorem putKey_ne_loop (E : Env) (s : St) (cur : Ptr) (k : Bytes) (t : VT) : putKey E s cur k t ≠ .loop :=
  bind_ne_loop (setKeyCached_ne_loop E _ _ _ _ _) (fun _ _ => by simp)

theorem head_ne_star {v : Bytes} {c : UInt8} (hs : 42 ∉ v) (h : v.head? = some c) : c ≠ 42 := by
  rintro rfl
  cases v with
  | nil => cases h
  | cons x r => cases h; exact hs (by simp)

theorem strVal_ne_loop (E : Env) (k : Nat) {amp : Res St} (ha : amp ≠ .loop) (s : St) (t : Ptr) {v : Bytes} (hs : 42 ∉ v) : strVal E k amp s t v ≠ .loop := by
  unfold strVal
  split
  · simp
  split
  · simp
  split
  · simp
  split
  · simp
  rename_i c hc
  split
  · simp
  split
  · simp
  split
  · exact ha
  rw [if_neg (head_ne_star hs hc)]
  simp

theorem strVal2_ne_loop (E : Env) (k : Nat) (s : St) (t : Ptr) {v : Bytes} (hs : 42 ∉ v) : strVal2 E k s t v ≠ .loop :=
  strVal_ne_loop E k (by simp) s t hs

theorem strVal1_ne_loop (E : Env) (k : Nat) (s : St) (t : Ptr) {v : Bytes} (hs : 42 ∉ v) : strVal1 E k s t v ≠ .loop := by
  refine strVal_ne_loop E k ?_ s t hs
  split
  · simp
  · dsimp only
    split
    · simp
    · exact strVal2_ne_loop E k _ _ (fun h => hs (List.mem_of_mem_drop ((trim_infix _).sublist.mem h)))

theorem mergeRef_ne_loop (k : Nat) (s : St) (cur : Ptr) (line key : Bytes) {v : Bytes} (hs : 42 ∉ v) : mergeRef k s cur line key v ≠ .loop := by
  unfold mergeRef
  split
  · split
    · simp
    · rename_i c hc
      rw [if_neg (fun h => head_ne_star hs hc h.1)]
      simp
  · simp

theorem putStr_ne_loop (E : Env) (k : Nat) (s : St) (cur : Ptr) (key : Bytes) {v : Bytes} (hs : 42 ∉ v) {β : Type} (f : Ptr → St → β) :
    (do let (q, s) ← putKey E s cur key .string; let s ← strVal1 E k s q v; .ok (f q s) : Res β) ≠ .loop :=
  bind_ne_loop (putKey_ne_loop _ _ _ _ _) (fun _ _ => bind_ne_loop (strVal1_ne_loop E k _ _ hs) (fun _ _ => by simp))

theorem parseArray_ne_loop (E : Env) (pick : Heap → Option Nat) (k : Nat) {line : Bytes} (hs : 42 ∉ line) (sp : Int) (s : St) : parseArray E pick k line sp s ≠ .loop := by
  have hk : ∀ c, c ∈ (splitKv (trim line)).1 ∨ c ∈ (splitKv (trim line)).2.1 → c ∈ line := fun c h => (trim_infix _).sublist.mem (splitKv_sub h)
  unfold parseArray
  dsimp only
  split
  · simp
  split
  · simp
  rename_i top _
  generalize (if s.p.stack = [] then newRoot pick .array s else s) = s
  generalize (if (s.h.mem top.v).dt = .object then { s with h := reset s.h top.v .array } else s) = s
  split
  · split
    · simp
    · split
      · exact strVal1_ne_loop E k _ _ (fun h => hs (hk _ (Or.inl h)))
      · split
        · simp
        · split
          · exact bind_ne_loop (putKey_ne_loop _ _ _ _ _) (fun _ _ => by simp)
          · exact putStr_ne_loop E k _ _ _ (fun h => hs (hk _ (Or.inr h))) (fun q s => push s true sp q)
  · split
    · simp
    · exact bind_ne_loop (getString_ne_loop E _) (fun _ _ => by simp)

theorem objSame_ne_loop (E : Env) (k : Nat) (line : Bytes) (sp : Int) (key : Bytes) {v : Bytes} (hs : 42 ∉ v) (split : Bool) (cur : Ptr) (s : St) : objSame E k line sp key v split cur s ≠ .loop := by
  unfold objSame
  split
  · simp
  · refine bind_ne_loop (mergeRef_ne_loop k s cur line key hs) (fun a _ => ?_)
    obtain ⟨m, s⟩ := a
    dsimp only
    split
    · simp
    split
    · exact putStr_ne_loop E k s cur key hs (fun q s => push s false sp q)
    · exact bind_ne_loop (putKey_ne_loop _ _ _ _ _) (fun _ _ => by simp)

theorem objMember_ne_loop (E : Env) (k : Nat) (key : Bytes) {v : Bytes} (hs : 42 ∉ v) (cur : Ptr) (s : St) : objMember E k key v cur s ≠ .loop := by
  unfold objMember
  split
  · exact putKey_ne_loop _ _ _ _ _
  rename_i c hc
  split
  · dsimp only
    have hw : 42 ∉ (if 0 < ((v.drop 1).findIdx? (· == 32)).getD 0 then ((v.drop 1).take (((v.drop 1).findIdx? (· == 32)).getD 0), trim ((v.drop 1).drop (((v.drop 1).findIdx? (· == 32)).getD 0)))
        else (v.drop 1, [])).2 := by
      intro h
      split at h
      · exact hs (List.mem_of_mem_drop (List.mem_of_mem_drop ((trim_infix _).sublist.mem h)))
      · cases h
    generalize (if 0 < ((v.drop 1).findIdx? (· == 32)).getD 0 then ((v.drop 1).take (((v.drop 1).findIdx? (· == 32)).getD 0), trim ((v.drop 1).drop (((v.drop 1).findIdx? (· == 32)).getD 0)))
        else (v.drop 1, [])) = nw at hw ⊢
    split
    · exact bind_ne_loop (putKey_ne_loop _ _ _ _ _) (fun _ _ => by simp)
    · exact bind_ne_loop (putKey_ne_loop _ _ _ _ _) (fun _ _ => bind_ne_loop (strVal1_ne_loop E k _ _ hw) (fun _ _ => bind_ne_loop (by simp) (fun _ _ => by simp)))
  · rw [if_neg (head_ne_star hs hc)]
    exact putStr_ne_loop E k s cur key hs Prod.mk

theorem objChild_ne_loop (E : Env) (k : Nat) (line : Bytes) (sp : Int) (key : Bytes) {v : Bytes} (hs : 42 ∉ v) (cur : Ptr) (s : St) : objChild E k line sp key v cur s ≠ .loop := by
  unfold objChild
  split
  · split
    · simp
    · exact bind_ne_loop (getString_ne_loop E _) (fun _ _ => by simp)
  · refine bind_ne_loop (mergeRef_ne_loop k _ cur line key hs) (fun a _ => ?_)
    obtain ⟨m, s⟩ := a
    dsimp only
    split
    · simp
    · exact bind_ne_loop (objMember_ne_loop E k key hs cur s) (fun _ _ => by simp)

theorem objBack_ne_loop (E : Env) (k : Nat) (line : Bytes) (sp : Int) (key : Bytes) {v : Bytes} (hs : 42 ∉ v) (split : Bool) (cur : Ptr) (s : St) : objBack E k line sp key v split cur s ≠ .loop := by
  unfold objBack
  split
  · simp
  split
  · exact bind_ne_loop (putKey_ne_loop _ _ _ _ _) (fun _ _ => by simp)
  · refine bind_ne_loop (mergeRef_ne_loop k _ cur line key hs) (fun a _ => ?_)
    obtain ⟨m, s⟩ := a
    dsimp only
    split
    · simp
    · exact putStr_ne_loop E k s cur key hs (fun q s => push s false sp q)

theorem parseObject_ne_loop (E : Env) (pick : Heap → Option Nat) (k : Nat) {line : Bytes} (hs : 42 ∉ line) (sp : Int) (s : St) : parseObject E pick k line sp s ≠ .loop := by
  have hv : 42 ∉ (splitKv line).2.1 := fun h => hs (splitKv_sub (Or.inr h))
  unfold parseObject
  dsimp only
  split
  · simp
  rename_i top _
  generalize (if s.p.stack = [] then newRoot pick .object s else s) = s'
  generalize (if ¬s.p.stack = [] ∧ s'.p.first = true ∧ top.isMap = true then s'.p.last + 2 else s'.p.last) = last
  split
  · simp
  split
  · exact objSame_ne_loop E k _ _ _ hv _ _ _
  split
  · exact objChild_ne_loop E k _ _ _ hv _ _
  · exact objBack_ne_loop E k _ _ _ hv _ _ _

/-- A line without `*` is done, whatever the memory. -/
theorem parseLine_ne_loop (E : Env) (pick : Heap → Option Nat) (k : Nat) {line : Bytes} (hs : 42 ∉ line) (sp : Nat) (s : St) : parseLine E pick k line sp s ≠ .loop := by
  have hs1 : 42 ∉ cutComment (line.drop sp) := fun h => hs (List.mem_of_mem_drop ((cutComment_infix _).sublist.mem h))
  unfold parseLine
  dsimp only
  split
  · simp
  split
  · simp
  generalize (if s.p.first = true ∧ s.p.stack.head?.map (·.isMap) = some true then s.p.last + 2 else s.p.last) = last
  split
  · exact bind_ne_loop (parseArray_ne_loop E pick k (fun h => hs1 (List.mem_of_mem_drop h)) _ _) (fun _ _ => by simp)
  · exact bind_ne_loop (parseObject_ne_loop E pick k hs1 _ _) (fun _ _ => by simp)

theorem parseLoop_ne_loop (E : Env) (pick : Heap → Option Nat) (k : Nat) {data : Bytes} (hs : 42 ∉ data) : ∀ (f i : Nat) (s : St), data.length ≤ i + f → i < data.length →
    (∀ l, (linesOf (data.drop i)).getLast? = some l → l.length ≠ 1) → parseLoop E pick k data f i s ≠ .loop := by
  intro f
  induction f with
  | zero => intro i s h1 h2; omega
  | succ f ih =>
    intro i s hf hi hla
    rw [parseLoop]
    have hlen : (data.drop i).length = data.length - i := List.length_drop
    have hs' : 42 ∉ (data.drop i).takeWhile (· != 10) := fun h => hs (List.mem_of_mem_drop ((List.takeWhile_prefix _).mem h))
    by_cases hmore : ((data.drop i).takeWhile (· != 10)).length < (data.drop i).length
    · have hl := linesOf_more hmore
      rw [if_pos hmore]
      generalize (data.drop i).takeWhile (· != 10) = line at *
      have hdrop : (data.drop i).drop (line.length + 1) = data.drop (i + line.length + 1) := by rw [List.drop_drop]; congr 1
      rw [hdrop] at hl
      have rest : i + line.length + 1 < data.length → ∀ s', parseLoop E pick k data f (i + line.length + 1) s' ≠ .loop := by
        intro hlt s'
        refine ih _ s' (by omega) hlt (fun l hl' => hla l ?_)
        rw [hl, List.getLast?_cons]
        simp [hl']
      split
      · split
        · simp
        · exact rest (by omega) _
      · refine bind_ne_loop (parseLine_ne_loop E pick k hs' _ _) (fun _ _ => ?_)
        split
        · simp
        · exact rest (by omega) _
    · obtain ⟨hl, hln⟩ := linesOf_last hmore
      rw [if_neg hmore]
      rw [hln] at hs' ⊢
      split
      · exact absurd (by omega) (hla (data.drop i) (by rw [hl]; rfl))
      · refine bind_ne_loop (parseLine_ne_loop E pick k hs' _ _) (fun _ _ => ?_)
        rw [if_pos (by omega)]
        simp

/-- Texts without `*` whose last line has not exactly one byte: the parser comes to an end. -/
theorem parse_ne_loop (E : Env) (pick : Heap → Option Nat) {data : Bytes} (hs : 42 ∉ data) (hla : ∀ l, (linesOf data).getLast? = some l → l.length ≠ 1) (f : Nat) (hf : data.length ≤ f) (s : St) :
    parse E pick f data s ≠ .loop := by
  unfold parse
  split
  · simp
  · rename_i hne
    exact parseLoop_ne_loop E pick f hs f 0 _ (by omega) (List.length_pos_iff.mpr hne) hla

end Dxs.Yaml
