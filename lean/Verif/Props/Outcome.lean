import Verif.Load.Outcome
import Verif.Props.LoadBson

/-!
# C121: a text is refused by `LoadFromX` exactly if it is refused by `NewValueFromX`
-/

namespace Dxs.Heap
open Json (skipWB)

/-- How a call ends, without its result: it returns, it returns an error, it panics, it does not return. -/
inductive End where
  | done
  | refused (e : Err)
  | panics
  | never
deriving DecidableEq

def Out.ends {α : Type} : Out α → End
  | .ok _ _ => .done
  | .err e _ => .refused e
  | .panic => .panics
  | .loop => .never

/-- The same for a function that does not use the memory. -/
def Res.ends {α : Type} : Res α → End
  | .ok _ => .done
  | .err e => .refused e
  | .panic => .panics
  | .loop => .never

theorem Alike.ends {α β γ : Type} {f : α → γ} {g : β → γ} {x : Out α} {y : Out β} (l : Alike f g x y) : x.ends = y.ends := by
  match x, y, l with
  | .ok _ _, .ok _ _, _ => rfl
  | .err _ _, .err _ _, e => exact congrArg End.refused e
  | .panic, .panic, _ => rfl
  | .loop, .loop, _ => rfl

theorem ends_bind {α β : Type} (x : Out α) (f : α → Heap → β) : (x.bind fun a h => .ok (f a h) h).ends = x.ends := by cases x <;> rfl

theorem Loads.ends {h : Heap} {x : Res Val} {y : Out (Option Ptr)} (l : Loads h x y) : y.ends = Res.ends x := by
  match x, y, l with
  | .ok _, .ok _ _, _ => rfl
  | .err _, .err _ _, ⟨e, _⟩ => exact congrArg End.refused e
  | .panic, .panic, _ => rfl
  | .loop, .loop, _ => rfl

theorem LoadsX.ends {h : Heap} {x : Res Val} {y : Out (Option Ptr)} (l : LoadsX h x y) : y.ends = Res.ends x := by
  match x, y, l with
  | .ok _, .ok _ _, _ => rfl
  | .err _, .err _ _, ⟨e, _⟩ => exact congrArg End.refused e
  | .panic, .panic, _ => rfl
  | .loop, .loop, _ => rfl

theorem Res.ends_never {α : Type} {x : Res α} (h : x ≠ .loop) : Res.ends x ≠ .never := by
  cases x with
  | loop => exact absurd rfl h
  | _ => simp [Res.ends]

/-! ## MessagePack -/

theorem msgPack_ends (E : Env) (h h' : Heap) (p : Ptr) (b : Bytes) (hb : b ≠ []) (c : Option CId) :
    (loadMsgPackH E h p b).ends = ((parseValueH E (b.length + 1) c h' b).bind fun vb h => .ok vb.1 h).ends := by
  unfold loadMsgPackH
  dsimp only
  rw [if_neg (by simpa using hb), ends_bind _ (fun _ _ => ()), ends_bind _ (fun (vb : Option Ptr × Bytes) _ => vb.1)]
  exact (parse2H_alike E b.length p c _ h' b).ends

/-- C121 for MessagePack: for every text that is not empty, every value (also one of the constants) in every memory, and any memory the
new value is made in. -/
theorem C121_msgpack_partial (E : Env) (h h' : Heap) (p : Ptr) (b : Bytes) (hb : b ≠ []) (cached : Bool) (pick : Option Nat) :
    (loadMsgPackH E h p b).ends = (newValueFromMsgPackH E h' b cached pick).ends := by
  unfold newValueFromMsgPackH
  cases cached <;> exact msgPack_ends E h _ p b hb _

/-- So `LoadFromMsgPack` ends as the decoder on trees does. -/
theorem C121_msgpack_tree_partial (E : Env) (h : Heap) (p : Ptr) (b : Bytes) (hb : b ≠ []) :
    (loadMsgPackH E h p b).ends = Res.ends (MsgPack.newValueFromMsgPack E b) := by
  rw [C121_msgpack_partial E h (Heap.init id) p b hb false none]
  exact (newValueFromMsgPackH_spec E (inv_init id) b false none).ends

/-! ## JSON -/

theorem json_ends (E : Env) (h h' : Heap) (p : Ptr) (b : Bytes) (hb : (skipWB b).1 ≠ []) (c : Option CId) :
    (loadJsonH E h p b).ends = (jrootH E c h' b).ends ∨
    (loadJsonH E h p b).ends = .done ∧ ∃ n t, (jrootH E c h' b).ends = .refused (.json .invalidate n t) ∧ (skipWB t).1 ≠ [] := by
  unfold loadJsonH jrootH
  dsimp only
  rw [if_neg (by simpa using hb)]
  have l := json2H_alike E (3 * (skipWB b).1.length + 1) p c (clear h p) h' (skipWB b).1
  rw [ends_bind _ (fun _ _ => ())]
  generalize json2H E (3 * (skipWB b).1.length + 1) p (clear h p) (skipWB b).1 = x at l
  have e3 : 3 * (skipWB b).1.length + 1 + 2 = 3 * (skipWB b).1.length + 3 := rfl
  rw [e3] at l
  generalize jvalueH E (3 * (skipWB b).1.length + 3) c h' (skipWB b).1 = y at l
  match x, y, l with
  | .ok _ _, .ok vt _, _ =>
    dsimp only [Out.bind]
    by_cases ht : (skipWB vt.2).1.length > 0
    · rw [if_pos ht]; exact Or.inr ⟨rfl, _, _, rfl, fun h => by rw [h] at ht; simp at ht⟩
    · rw [if_neg ht]; exact Or.inl rfl
  | .err _ _, .err _ _, e => exact Or.inl (congrArg End.refused e)
  | .panic, .panic, _ => exact Or.inl rfl
  | .loop, .loop, _ => exact Or.inl rfl

/-- C121 for JSON: for every text that is not blank, every value in every memory: the same, except that `LoadFromJson` accepts texts
that `NewValueFromJson` refuses because something follows the value. -/
theorem C121_json_partial (E : Env) (h h' : Heap) (p : Ptr) (b : Bytes) (hb : (skipWB b).1 ≠ []) (cached : Bool) (pick : Option Nat) :
    (loadJsonH E h p b).ends = (newValueFromJsonH E h' b cached pick).ends ∨
    (loadJsonH E h p b).ends = .done ∧ ∃ n t, (newValueFromJsonH E h' b cached pick).ends = .refused (.json .invalidate n t) ∧ (skipWB t).1 ≠ [] := by
  unfold newValueFromJsonH
  cases cached <;> exact json_ends E h _ p b hb _

/-- What `NewValueFromJson` accepts, `LoadFromJson` accepts. -/
theorem C121_json_accepted (E : Env) (h h' : Heap) (p : Ptr) (b : Bytes) (cached : Bool) (pick : Option Nat) (hn : (newValueFromJsonH E h' b cached pick).ends = .done) :
    (loadJsonH E h p b).ends = .done := by
  by_cases hb : (skipWB b).1 = []
  · unfold loadJsonH
    dsimp only
    rw [if_pos (by simp [hb])]
    rfl
  · rcases C121_json_partial E h h' p b hb cached pick with e | ⟨e, -⟩
    · rw [e, hn]
    · exact e

/-! ## BSON -/

theorem bson_ends (E : Env) (hid : Bytes) {h h' : Heap} (I : Inv h) (I' : Inv h') {p : Ptr} (hp : p < h.next) (b : Bytes) (hb : b ≠ []) (c : Option CId) (hc : ∀ d, c = some d → d < h'.nextC) :
    (loadBsonH E hid h p b).ends = (bsonRootH E hid h' b c).ends := by
  unfold loadBsonH bsonRootH
  dsimp only
  rw [if_neg hb, ends_bind _ (fun _ _ => ()), ends_bind _ (fun _ _ => some (getValue h' c .object).1)]
  have I1 := I.clear p
  have st := I'.getValue_st (X := anyCache) c .object hc (by simp)
  exact ((balike E hid _ c _).doc _ _ _ _ b p _ ⟨I1, solid_clear hp, fun d e => I1.owner p d e⟩
    ⟨st.inv, solid_blank I' c .object hc, fun d e => Nat.lt_of_lt_of_le (hc d e) st.nextC⟩ rfl rfl).ends

/-- C121 for BSON: for every text that is not empty, every value in every memory that is in order. -/
theorem C121_bson_partial (E : Env) (hid : Bytes) (h h' : Heap) (I : Inv h) (I' : Inv h') (p : Ptr) (hp : p < h.next) (b : Bytes) (hb : b ≠ []) (cached : Bool) (pick : Option Nat) :
    (loadBsonH E hid h p b).ends = (newValueFromBsonH E hid h' b cached pick).ends := by
  unfold newValueFromBsonH
  cases cached with
  | false => exact bson_ends E hid I I' hp b hb none (by simp)
  | true =>
    obtain ⟨I1, hlt⟩ := I'.getCache pick
    exact bson_ends E hid I I1 hp b hb _ (by intro d hd; cases hd; exact hlt)

/-- So `LoadFromBson` ends as the decoder on trees does. -/
theorem C121_bson_tree_partial (E : Env) (hid : Bytes) (h : Heap) (I : Inv h) (p : Ptr) (hp : p < h.next) (b : Bytes) (hb : b ≠ []) :
    (loadBsonH E hid h p b).ends = Res.ends (Bson.newValueFromBson E hid b) := by
  rw [C121_bson_partial E hid h h I I p hp b hb false none]
  exact (newValueFromBsonH_spec E hid I b false none).ends

/-! ## What is missing -/

/-- C121: the empty text is refused by the New functions and accepted by the Load functions, for all values. -/
theorem C121_empty_counterexample (E : Env) (hid : Bytes) (h : Heap) (p : Ptr) (cached : Bool) (pick : Option Nat) :
    (loadMsgPackH E h p []).ends = .done ∧ (loadJsonH E h p []).ends = .done ∧ (loadBsonH E hid h p []).ends = .done ∧
    (∃ e, (newValueFromMsgPackH E h [] cached pick).ends = .refused e) ∧ (∃ e, (newValueFromJsonH E h [] cached pick).ends = .refused e) ∧
    ∃ e, (newValueFromBsonH E hid h [] cached pick).ends = .refused e := by
  refine ⟨rfl, rfl, rfl, ?_, ?_, ?_⟩
  · cases cached <;> exact ⟨_, rfl⟩
  · cases cached <;> exact ⟨_, rfl⟩
  · cases cached <;> exact ⟨_, rfl⟩

/-- C121: `[] x` is loaded, but no new value is made from it. -/
theorem C121_trailing_counterexample :
    (loadJsonH envEx exHeap 7 [91, 93, 32, 120]).ends = .done ∧ (newValueFromJsonH envEx exHeap [91, 93, 32, 120] false none).ends = .refused (.json .invalidate 0 [32, 120]) := by
  decide +kernel

/-! ## They all return -/

/-- C121: `LoadFromMsgPack`, `LoadFromJson` and `LoadFromBson` always return, whatever the text and the value. -/
theorem C121_returns (E : Env) (hid : Bytes) (h : Heap) (I : Inv h) (p : Ptr) (hp : p < h.next) (b : Bytes) :
    (loadMsgPackH E h p b).ends ≠ .never ∧ (loadJsonH E h p b).ends ≠ .never ∧ (loadBsonH E hid h p b).ends ≠ .never := by
  refine ⟨?_, ?_, ?_⟩
  · by_cases hb : b = []
    · subst hb; simp [(C121_empty_counterexample E [] h p false none).1]
    · rw [C121_msgpack_tree_partial E h p b hb]
      exact Res.ends_never (newMsgPack_ends E b)
  · by_cases hb : (skipWB b).1 = []
    · unfold loadJsonH
      dsimp only
      rw [if_pos (by simp [hb])]
      simp [Out.ends]
    · rcases C121_json_partial E h h p b hb false none with e | ⟨e, -⟩
      · rw [e, (newValueFromJsonH_spec E I b false none).ends]
        exact Res.ends_never (newJson_ends E b)
      · rw [e]; simp
  · by_cases hb : b = []
    · subst hb; simp [(C121_empty_counterexample E hid h p false none).2.2.1]
    · rw [C121_bson_tree_partial E hid h I p hp b hb]
      exact Res.ends_never (Bson.C57_terminates E hid b)

/-- `LoadFromJson` never panics. -/
theorem C121_json_safe (E : Env) (h : Heap) (p : Ptr) (b : Bytes) : (loadJsonH E h p b).ends ≠ .panics := by
  by_cases hb : (skipWB b).1 = []
  · unfold loadJsonH
    dsimp only
    rw [if_pos (by simp [hb])]
    simp [Out.ends]
  · rcases C121_json_partial E h (Heap.init id) p b hb false none with e | ⟨e, -⟩
    · rw [e, (newValueFromJsonH_spec E (inv_init id) b false none).ends]
      rcases Json.C21_total E b with ⟨v, h⟩ | ⟨e, h⟩ <;> rw [h] <;> simp [Res.ends]
    · rw [e]; simp

/-- A map with one member is loaded into an array, a text that breaks off is refused, and a string that is no map key. -/
example : (loadMsgPackH envEx exHeap 7 [0x81, 0xa1, 97, 1]).ends = .done ∧ (∃ e, (loadMsgPackH envEx exHeap 7 [0x92, 1]).ends = .refused e) ∧
    (∃ e, (loadJsonH envEx exHeap 7 [91, 49, 44]).ends = .refused e) ∧ ∃ e, (loadBsonH envEx [] exHeap 7 [5, 0, 0]).ends = .refused e := by
  refine ⟨by decide +kernel, ⟨_, rfl⟩, ⟨_, rfl⟩, ⟨_, rfl⟩⟩

end Dxs.Heap
