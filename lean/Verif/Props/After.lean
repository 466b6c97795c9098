import Verif.Props.Whole
import Verif.Load.BsonFill
import Verif.Load.Prog

/-!
# C105: a value after a failed load
-/

namespace Dxs.Heap
open Json (Style)

/-! ## `Solid` trees have no nil -/

mutual
theorem Rep.noNil {S : Ptr → Prop} {h : Heap} (s : Solid S h) : ∀ {v : Val} {p : Ptr} {F : List Ptr}, Rep h.mem v (some p) F → S p → noNil v = true
  | .nil, _, _, hr, _ => by cases hr.1
  | .obj ku kvs, p, F, hr, hp => by
    obtain ⟨q, F', e, -, -, -, -, hm⟩ := hr
    cases e
    exact RepM.noNil s hm (s.kvs p hp)
  | .arr xs, p, F, hr, hp => by
    obtain ⟨q, F', e, -, -, hd, hm⟩ := hr
    cases e
    exact RepL.noNil s hm (s.arr p hp hd)
  | .str _, _, _, _, _ | .raw _, _, _, _, _ | .int _ _, _, _, _, _ | .float _, _, _, _, _ | .double _, _, _, _, _ | .dateTime _, _, _, _, _ | .bin _ _, _, _, _, _
  | .exbin _ _, _, _, _, _ | .null, _, _, _, _ | .tru, _, _, _, _ | .fls, _, _, _, _ | .nan, _, _, _, _ | .inf, _, _, _, _ => rfl
theorem RepM.noNil {S : Ptr → Prop} {h : Heap} (s : Solid S h) : ∀ {kvs : List (Bytes × Val)} {ps : List (Bytes × Option Ptr)} {F : List Ptr}, RepM h.mem kvs ps F →
    (∀ a ∈ ps.map Prod.snd, ∃ q, a = some q ∧ S q ∧ 5 ≤ q) → noNilM kvs = true
  | [], _, _, _, _ => rfl
  | (k, v) :: kvs, ps, F, hr, hp => by
    obtain ⟨q, qs, F1, F2, rfl, -, hv, hm⟩ := hr
    obtain ⟨r, rfl, hs, -⟩ := hp q (by simp)
    rw [noNilM, Rep.noNil s hv hs, RepM.noNil s hm (fun a ha => hp a (by rw [List.map_cons]; exact List.mem_cons_of_mem _ ha))]
    rfl
theorem RepL.noNil {S : Ptr → Prop} {h : Heap} (s : Solid S h) : ∀ {xs : List Val} {ps : List (Option Ptr)} {F : List Ptr}, RepL h.mem xs ps F →
    (∀ a ∈ ps, ∃ q, a = some q ∧ S q ∧ 5 ≤ q) → noNilL xs = true
  | [], _, _, _, _ => rfl
  | v :: xs, ps, F, hr, hp => by
    obtain ⟨q, qs, F1, F2, rfl, -, hv, hm⟩ := hr
    obtain ⟨r, rfl, hs, -⟩ := hp q (by simp)
    rw [noNilL, Rep.noNil s hv hs, RepL.noNil s hm (fun a ha => hp a (List.mem_cons_of_mem _ ha))]
    rfl
end

/-- `Clear` keeps the caches in order if the cache of the value has been used. -/
theorem Own.clear {h : Heap} (O : Own h) {p : Ptr} (hp : p < h.next) (hr : ∀ d, (h.mem p).owner = some d → (h.caches d).isroot = false) : Own (Heap.clear h p) := by
  have ho : ∀ q, ((Heap.clear h p).mem q).owner = (h.mem q).owner := by
    intro q
    by_cases e : q = p
    · subst e; exact clear_owner h q
    · rw [clear_mem_ne e]
  have hc : ∀ d, ((Heap.clear h p).caches d).slots = (h.caches d).slots ∧ ((Heap.clear h p).caches d).isroot = (h.caches d).isroot ∧
      ((h.caches d).isroot = true → ((Heap.clear h p).caches d).len = (h.caches d).len) := by
    intro d
    unfold Heap.clear
    cases e : (h.mem p).owner with
    | none => exact ⟨rfl, rfl, fun _ => rfl⟩
    | some c =>
      simp only [Heap.cacheReset, Heap.setC, Heap.upd, Heap.set]
      by_cases hd : d = c
      · subst hd
        rw [if_pos rfl]
        exact ⟨rfl, rfl, fun h => by rw [hr d e] at h; cases h⟩
      · rw [if_neg hd]
        exact ⟨rfl, rfl, fun _ => rfl⟩
  have hn : (Heap.clear h p).next = h.next := clear_next h p
  have hnc : (Heap.clear h p).nextC = h.nextC := by unfold Heap.clear; cases (h.mem p).owner <;> rfl
  refine ⟨fun q hq => ?_, fun c hlt q hq => ?_, fun c hlt q hq => ?_, fun c hlt hroot => ?_⟩
  · rw [ho]; exact O.fresh q (hn ▸ hq)
  · rw [(hc c).1] at hq; rw [ho]; exact O.slot c (hnc ▸ hlt) q hq
  · rw [(hc c).1] at hq; rw [ho]; exact O.tail c (hnc ▸ hlt) q hq
  · rw [(hc c).2.1] at hroot; rw [(hc c).2.2 hroot]; exact O.root c (hnc ▸ hlt) hroot

/-! ## C105 -/

/-- C105 for `LoadFromBson`, for all values and all bytes: whether it fails or not, the value afterwards is a proper tree without nil, and
the caches are in order. Missing: `LoadFromJson` and `LoadFromMsgPack`, see below. -/
theorem C105_bson_partial (E : Env) (hid : Bytes) (h : Heap) (O : Own h) (p : Ptr) (h5 : 5 ≤ p) (w : Val) (F : List Ptr) (g : Good h (some p) w F)
    (hr : ∀ d, (h.mem p).owner = some d → (h.caches d).isroot = false) (b : Bytes) (e : Err) (h' : Heap)
    (hx : loadBsonH E hid h p b = .err e h' ∨ loadBsonH E hid h p b = .ok () h') :
    ∃ v F', Good h' (some p) v F' ∧ noNil v = true ∧ Own h' := by
  have gc := g.clear O h5
  have hp : p < h.next := by
    rcases Nat.lt_or_ge p h.next with h1 | h1
    · exact h1
    · exact absurd (Or.inl h1) (g.live p (rep_mem g.rep h5))
  have Oc := O.clear hp hr
  have s1 : Solid (fun q => q = p) (Heap.clear h p) := solid_clear hp
  have hc : ∀ d, ((Heap.clear h p).mem p).owner = some d → d < (Heap.clear h p).nextC := fun d => gc.inv.owner p d
  unfold loadBsonH at hx
  dsimp only at hx
  by_cases hb : b = []
  · rw [if_pos hb] at hx
    rcases hx with hx | hx <;> cases hx
    exact ⟨_, _, gc, gc.rep.noNil s1 rfl, Oc⟩
  · rw [if_neg hb] at hx
    have l := (bfills E hid anyCache ((Heap.clear h p).mem p).owner (by simp [anyCache]) (2 * b.length + 2)).doc _ _ b p _ _ gc h5 ⟨Oc, by simp [anyCache], by simp [anyCache]⟩ s1 hc rfl
    have k := (bkeeps E hid ((Heap.clear h p).mem p).owner (2 * b.length + 2)).doc _ _ b p gc.inv s1 hc rfl
    generalize bsonDocH E hid ((Heap.clear h p).mem p).owner (2 * b.length + 2) b p (Heap.clear h p) = y at l k hx
    match y, l, k with
    | .ok _ h2, ⟨st, v, F', u⟩, ⟨_, S', s', hS⟩ =>
      rcases hx with hx | hx <;> cases hx
      exact ⟨v, F', u.good, u.good.rep.noNil s' (hS p rfl), st.own Oc⟩
    | .err _ h2, ⟨st, v, F', u⟩, ⟨_, S', s', hS⟩ =>
      rcases hx with hx | hx <;> cases hx
      exact ⟨v, F', u.good, u.good.rep.noNil s' (hS p rfl), st.own Oc⟩
    | .panic, _, _ => rcases hx with hx | hx <;> cases hx
    | .loop, _, _ => rcases hx with hx | hx <;> cases hx

/-- The memory after a call, whatever the outcome. -/
def Out.after {α β : Type} (x : Out α) (f : Heap → β) : Option (Bool × β) :=
  match x with
  | .ok _ h => some (true, f h)
  | .err _ h => some (false, f h)
  | _ => none

/-- `Clone` of the value at address 5 panics. -/
def clonePanics (h : Heap) : Bool :=
  match clone 10 h (some 5) none with
  | .panic => true
  | _ => false

/-- `{"a":` loaded into an object: an error, and the object has a nil member; cloning it panics. -/
theorem C105_json_object : (loadJsonH envEx (oneValue .object) 5 [123, 34, 97, 34, 58]).after (fun h => ((h.mem 5).kvs, clonePanics h)) =
    some (false, [([97], none)], true) := by decide

/-- `{"` too, and the nil member has no name. -/
theorem C105_json_name : (loadJsonH envEx (oneValue .object) 5 [123, 34]).after (fun h => ((h.mem 5).kvs, clonePanics h)) =
    some (false, [([], none)], true) := by decide

/-- `[1` loaded into an array: an error, and the array has a nil element; cloning it panics. -/
theorem C105_json_array : (loadJsonH envEx (oneValue .array) 5 [91, 49]).after (fun h => ((h.mem 5).arr, clonePanics h)) =
    some (false, [none], true) := by decide

/-- MessagePack `[reserved code` (an array of two elements that ends after the first). -/
theorem C105_msgpack : (loadMsgPackH envEx (oneValue .array) 5 [0x92, 0xc1]).after (fun h => ((h.mem 5).arr, clonePanics h)) =
    some (false, [none], true) := by decide

/-- The hypotheses of `C105_bson_partial` hold for a document with a wrong length inside: `{"a":{"b":true,"c":[` loaded into an integer. -/
example : (loadBsonH envEx [] (oneValue .int) 5 [22, 0, 0, 0, 3, 97, 0, 15, 0, 0, 0, 8, 98, 0, 1, 4, 99, 0, 99, 0, 0, 0]).after (fun h => ((h.mem 5).kvs, clonePanics h)) =
    some (false, [([97], some 6)], false) := by decide +kernel
example : ∀ h' e, loadBsonH envEx [] (oneValue .int) 5 [22, 0, 0, 0, 3, 97, 0, 15, 0, 0, 0, 8, 98, 0, 1, 4, 99, 0, 99, 0, 0, 0] = .err e h' → ∃ v F', Good h' (some 5) v F' ∧ noNil v = true ∧ Own h' :=
  fun h' e hx => C105_bson_partial envEx [] _ (oneValue_own _) 5 (by decide) (.int 0 0) [5] (newValue_spec (inv_init id) .int rfl).good
    (fun d hd => by cases hd) _ e h' (Or.inl hx)

end Dxs.Heap
