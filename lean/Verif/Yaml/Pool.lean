import Verif.Yaml.Loop

/-!
# The field that `reset` leaves

A parser from the pool may still have `ifFirstObjEle` set. The field is read only when the top of the stack is a
mapping inside a list, and where such an entry is pushed the field is set.
-/

namespace Dxs.Yaml

open Dxs.Heap

/-- The same parser with another `ifFirstObjEle`. -/
def wf (b : Bool) (s : St) : St := { s with p := { s.p with first := b } }

def NoMap (l : List YNode) : Prop := ∀ n ∈ l, n.isMap = false

/-- States that go on alike. -/
def Alike (s s' : St) : Prop := s = s' ∨ ∃ b, s' = wf b s ∧ NoMap s.p.stack

def AlikeR (r r' : Res St) : Prop := r = r' ∨ ∃ s b, r = .ok s ∧ r' = .ok (wf b s) ∧ NoMap s.p.stack

theorem AlikeR.of {s s' : St} (h : Alike s s') : AlikeR (.ok s) (.ok s') := by
  rcases h with rfl | ⟨b, rfl, hn⟩
  · exact Or.inl rfl
  · exact Or.inr ⟨s, b, rfl, rfl, hn⟩

theorem AlikeR.bind {r r' : Res St} {F : St → Res St} (h : AlikeR r r') (hF : ∀ s s', Alike s s' → AlikeR (F s) (F s')) : AlikeR (r.bind F) (r'.bind F) := by
  rcases h with rfl | ⟨s, b, rfl, rfl, hn⟩
  · exact Or.inl rfl
  · exact hF s (wf b s) (Or.inr ⟨b, rfl, hn⟩)

theorem strVal_wf (E : Env) (k : Nat) (b : Bool) (s : St) (t : Ptr) (v : Bytes) {amp amp' : Res St} (ha : amp' = amp.bind (fun s => .ok (wf b s))) :
    strVal E k amp' (wf b s) t v = (strVal E k amp s t v).bind (fun s => .ok (wf b s)) := by
  unfold strVal
  have hh : (wf b s).h = s.h := rfl
  have hu : (wf b s).p.uses = s.p.uses := rfl
  have hc : (wf b s).p.cache = s.p.cache := rfl
  rw [hh, hu, hc]
  split
  · rfl
  split
  · rfl
  split
  · rfl
  split
  · rfl
  split
  · rfl
  split
  · rfl
  split
  · exact ha
  split
  · split
    · rfl
    · cases copyFrom k s.h t _ s.p.cache <;> rfl
  · rfl

theorem strVal2_wf (E : Env) (k : Nat) (b : Bool) (s : St) (t : Ptr) (v : Bytes) : strVal2 E k (wf b s) t v = (strVal2 E k s t v).bind (fun s => .ok (wf b s)) :=
  strVal_wf E k b s t v rfl

theorem strVal1_wf (E : Env) (k : Nat) (b : Bool) (s : St) (t : Ptr) (v : Bytes) : strVal1 E k (wf b s) t v = (strVal1 E k s t v).bind (fun s => .ok (wf b s)) := by
  refine strVal_wf E k b s t v ?_
  split
  · rfl
  · dsimp only
    split
    · rfl
    · exact strVal2_wf E k b { s with p := { s.p with uses := setUse _ t s.p.uses } } t _

theorem strVal_stack {E : Env} {k : Nat} {s s' : St} {t : Ptr} {v : Bytes} {amp : Res St} (ha : ∀ s', amp = .ok s' → s'.p.stack = s.p.stack) (h : strVal E k amp s t v = .ok s') :
    s'.p.stack = s.p.stack := by
  unfold strVal at h
  split at h
  · cases h; rfl
  split at h
  · cases h; rfl
  split at h
  · cases h; rfl
  split at h
  · cases h
  split at h
  · cases h; rfl
  split at h
  · cases h; rfl
  split at h
  · exact ha s' h
  split at h
  · split at h
    · cases h; rfl
    · obtain ⟨h1, -, h2⟩ := Res.bind_eq_ok.mp h
      cases h2; rfl
  · cases h; rfl

theorem strVal1_stack {E : Env} {k : Nat} {s s' : St} {t : Ptr} {v : Bytes} (h : strVal1 E k s t v = .ok s') : s'.p.stack = s.p.stack := by
  refine strVal_stack (fun s1 h1 => ?_) h
  split at h1
  · cases h1; rfl
  · dsimp only at h1
    split at h1
    · cases h1; rfl
    · exact strVal_stack (s := { s with p := { s.p with uses := setUse _ t s.p.uses } }) (fun s2 h2 => by cases h2; rfl) h1

theorem newRoot_wf (pick : Heap → Option Nat) (t : VT) (b : Bool) (s : St) : newRoot pick t (wf b s) = wf b (newRoot pick t s) := by
  unfold newRoot
  have hu : (wf b s).p.useCache = s.p.useCache := rfl
  rw [hu]
  split <;> rfl

theorem newRoot_stack (pick : Heap → Option Nat) (t : VT) (s : St) : NoMap (newRoot pick t s).p.stack := by
  unfold newRoot
  split <;> simp [NoMap]

theorem NoMap.push {s : St} (h : NoMap s.p.stack) (sp : Int) (q : Ptr) : NoMap (push s false sp q).p.stack := by
  intro n hn
  simp only [Yaml.push, List.mem_cons] at hn
  rcases hn with rfl | hn
  · rfl
  · exact h n hn

theorem parseArray_alike (E : Env) (pick : Heap → Option Nat) (k : Nat) (line : Bytes) (sp : Int) (b : Bool) (s : St) (hn : NoMap s.p.stack) :
    AlikeR (parseArray E pick k line sp s) (parseArray E pick k line sp (wf b s)) := by
  unfold parseArray
  have h1 : (if (wf b s).p.stack = [] then newRoot pick .array (wf b s) else wf b s) = wf b (if s.p.stack = [] then newRoot pick .array s else s) := by
    have : (wf b s).p.stack = s.p.stack := rfl
    rw [this, newRoot_wf]
    split <;> rfl
  have h2 : NoMap (if s.p.stack = [] then newRoot pick .array s else s).p.stack := by
    split
    · exact newRoot_stack _ _ _
    · exact hn
  dsimp only
  rw [h1]
  have h3 : (wf b s).p.last = s.p.last := rfl
  rw [h3]
  generalize (if s.p.stack = [] then newRoot pick .array s else s) = s1 at h2 ⊢
  split
  · exact Or.inl rfl
  have h4 : (wf b s1).p.stack = s1.p.stack := rfl
  rw [h4]
  split
  · exact Or.inl rfl
  rename_i top htop
  have h5 : (if ((wf b s1).h.mem top.v).dt = .object then { wf b s1 with h := Heap.reset (wf b s1).h top.v .array } else wf b s1) =
      wf b (if (s1.h.mem top.v).dt = .object then { s1 with h := Heap.reset s1.h top.v .array } else s1) := by
    have : (wf b s1).h = s1.h := rfl
    rw [this]
    split <;> rfl
  rw [h5]
  have h6 : NoMap (if (s1.h.mem top.v).dt = .object then { s1 with h := Heap.reset s1.h top.v .array } else s1).p.stack := by split <;> exact h2
  generalize (if (s1.h.mem top.v).dt = .object then { s1 with h := Heap.reset s1.h top.v .array } else s1) = s2 at h6 ⊢
  have h7 : (wf b s2).h = s2.h := rfl
  have h8 : (wf b s2).p.cache = s2.p.cache := rfl
  rw [h7, h8]
  split
  · generalize Heap.setIndexCached s2.h top.v (-1) (if trim line ≠ [] then VT.string else VT.array) s2.p.cache = r
    obtain ⟨q, h9⟩ := r
    dsimp only
    have h10 : push { p := (wf b s2).p, h := h9 } false sp q = wf b (push { p := s2.p, h := h9 } false sp q) := rfl
    rw [h10]
    have h11 := NoMap.push (s := { p := s2.p, h := h9 }) h6 sp q
    split
    · exact Or.inr ⟨_, b, rfl, rfl, h11⟩
    generalize push { p := s2.p, h := h9 } false sp q = s3 at h11 ⊢
    split
    · rw [strVal1_wf]
      rcases h12 : strVal1 E k s3 q (splitKv (trim line)).1 with s4 | _ | _ | _
      · exact Or.inr ⟨s4, b, rfl, rfl, by rw [strVal1_stack h12]; exact h11⟩
      · exact Or.inl rfl
      · exact Or.inl rfl
      · exact Or.inl rfl
    split
    · exact Or.inl rfl
    · exact Or.inl rfl
  · split
    · exact Or.inr ⟨_, b, rfl, rfl, h6⟩
    · rcases (getString E .panic (s2.h.mem top.v)).1 with t | _ | _ | _
      · exact Or.inr ⟨_, b, rfl, rfl, h6⟩
      · exact Or.inl rfl
      · exact Or.inl rfl
      · exact Or.inl rfl

theorem parseObject_alike (E : Env) (pick : Heap → Option Nat) (k : Nat) (line : Bytes) (sp : Int) (b : Bool) (s : St) (hn : NoMap s.p.stack) :
    parseObject E pick k line sp s = parseObject E pick k line sp (wf b s) := by
  unfold parseObject
  have h1 : (if (wf b s).p.stack = [] then newRoot pick .object (wf b s) else wf b s) = wf b (if s.p.stack = [] then newRoot pick .object s else s) := by
    have : (wf b s).p.stack = s.p.stack := rfl
    rw [this, newRoot_wf]
    split <;> rfl
  have h2 : NoMap (if s.p.stack = [] then newRoot pick .object s else s).p.stack := by
    split
    · exact newRoot_stack _ _ _
    · exact hn
  dsimp only
  rw [h1]
  have h0 : (wf b s).p.stack = s.p.stack := rfl
  rw [h0]
  generalize (if s.p.stack = [] then newRoot pick .object s else s) = s1 at h2 ⊢
  have h4 : (wf b s1).p.stack = s1.p.stack := rfl
  rw [h4]
  rcases h5 : s1.p.stack with _ | ⟨top, r⟩
  · rfl
  · have h6 : top.isMap = false := h2 top (by rw [h5]; exact List.mem_cons_self)
    simp only [List.head?_cons, h6, Bool.false_eq_true, and_false, if_false]
    rfl

theorem parseLine_alike (E : Env) (pick : Heap → Option Nat) (k : Nat) (line : Bytes) (sp : Nat) (s s' : St) (h : Alike s s') :
    AlikeR (parseLine E pick k line sp s) (parseLine E pick k line sp s') := by
  rcases h with rfl | ⟨b, rfl, hn⟩
  · exact Or.inl rfl
  unfold parseLine
  dsimp only
  split
  · exact Or.inl rfl
  split
  · exact Or.inr ⟨s, b, rfl, rfl, hn⟩
  have h1 : (s.p.stack.head?.map (·.isMap) = some true) = False := by
    rcases hs : s.p.stack with _ | ⟨n, r⟩
    · simp
    · have := hn n (by rw [hs]; exact List.mem_cons_self)
      simp [this]
  have h2 : (wf b s).p.stack = s.p.stack := rfl
  have h3 : (wf b s).p.last = s.p.last := rfl
  rw [h2, h3]
  simp only [h1, and_false, if_false]
  generalize hst : (if s.p.last > (sp : Int) then closeTo sp (s.p.stack.drop 2) else if s.p.last = (sp : Int) then s.p.stack.drop 1 else s.p.stack) = stack
  have hn' : NoMap stack := by
    intro n hm
    rw [← hst] at hm
    refine hn n ?_
    split at hm
    · exact List.mem_of_mem_drop (closeTo_sub hm)
    split at hm
    · exact List.mem_of_mem_drop hm
    · exact hm
  have h4 : ({ wf b s with p := { (wf b s).p with stack := stack } } : St) = wf b { s with p := { s.p with stack := stack } } := rfl
  have fin : ∀ s s' : St, Alike s s' → AlikeR (.ok { s with p := { s.p with last := (sp : Int) } }) (.ok { s' with p := { s'.p with last := (sp : Int) } }) := by
    rintro s s' (rfl | ⟨b, rfl, hn⟩)
    · exact Or.inl rfl
    · exact Or.inr ⟨{ s with p := { s.p with last := (sp : Int) } }, b, rfl, rfl, hn⟩
  split
  · exact AlikeR.bind (parseArray_alike E pick k _ _ b { s with p := { s.p with stack := stack } } hn') fin
  · exact AlikeR.bind (Or.inl (parseObject_alike E pick k _ _ b { s with p := { s.p with stack := stack } } hn')) fin

theorem parseLoop_alike (E : Env) (pick : Heap → Option Nat) (k : Nat) (data : Bytes) : ∀ (f i : Nat) (s s' : St), Alike s s' →
    AlikeR (parseLoop E pick k data f i s) (parseLoop E pick k data f i s')
  | 0, _, _, _, _ => Or.inl rfl
  | f + 1, i, s, s', h => by
    rw [parseLoop, parseLoop]
    generalize (if ((data.drop i).takeWhile (· != 10)).length < (data.drop i).length then i + ((data.drop i).takeWhile (· != 10)).length else data.length) = stop
    split
    · split
      · exact AlikeR.of h
      · exact parseLoop_alike E pick k data f _ s s' h
    · refine AlikeR.bind (parseLine_alike E pick k _ _ s s' h) (fun s s' h => ?_)
      split
      · exact AlikeR.of h
      · exact parseLoop_alike E pick k data f _ s s' h

end Dxs.Yaml
