import Verif.Tree.IntoBson
import Verif.Load.World
import Verif.Props.After
import Verif.EnvEx

/-!
# C129: what loading leaves of a value depends on the value and the document
-/

namespace Dxs.Heap

/-- Two calls of a loader, on the nodes `p` and `p'` of two memories: both succeed, both return the same error, or both panic; and what
the nodes hold afterwards (also after an error) is the same, up to the unused bits of a Float. -/
def SameEnd (p p' : Ptr) (y y' : Out Unit) : Prop :=
  (∃ h h' v v' F F', y = .ok () h ∧ y' = .ok () h' ∧ Rep h.mem v (some p) F ∧ Rep h'.mem v' (some p') F' ∧ canon v = canon v') ∨
  (∃ e h h' v v' F F', y = .err e h ∧ y' = .err e h' ∧ Rep h.mem v (some p) F ∧ Rep h'.mem v' (some p') F' ∧ canon v = canon v') ∨
  (y = .panic ∧ y' = .panic) ∨ (y = .loop ∧ y' = .loop)

/-- The call ends like the function on trees. -/
def EndsLike (p : Ptr) : Filled Unit → Out Unit → Prop
  | .ok _ v, .ok _ h' => ∃ v' F', canon v' = canon v ∧ Rep h'.mem v' (some p) F'
  | .err e v, .err e' h' => e' = e ∧ ∃ v' F', canon v' = canon v ∧ Rep h'.mem v' (some p) F'
  | .panic, .panic => True
  | .loop, .loop => True
  | _, _ => False

theorem EndsLike.two {p p' : Ptr} {x : Filled Unit} {y y' : Out Unit} (a : EndsLike p x y) (b : EndsLike p' x y') : SameEnd p p' y y' := by
  match x, y, y', a, b with
  | .ok _ _, .ok _ _, .ok _ _, ⟨v, F, hv, r⟩, ⟨v', F', hv', r'⟩ => exact Or.inl ⟨_, _, v, v', F, F', rfl, rfl, r, r', hv.trans hv'.symm⟩
  | .err _ _, .err _ _, .err _ _, ⟨rfl, v, F, hv, r⟩, ⟨rfl, v', F', hv', r'⟩ => exact Or.inr (Or.inl ⟨_, _, _, v, v', F, F', rfl, rfl, r, r', hv.trans hv'.symm⟩)
  | .panic, .panic, .panic, _, _ => exact Or.inr (Or.inr (Or.inl ⟨rfl, rfl⟩))
  | .loop, .loop, .loop, _, _ => exact Or.inr (Or.inr (Or.inr ⟨rfl, rfl⟩))

theorem Failed.dt {c : Option CId} {h h' : Heap} (I : Inv h) (f : Failed c h h') {q : Ptr} (hq : q < 5) : (h'.mem q).dt = (h.mem q).dt := by
  rcases f with ⟨-, s⟩ | ⟨hm, r, v, F, m, h5r, s, rfl, -⟩
  · exact I.dt_const s.step.inv hq
  · rw [freeValue_mem_ne (by omega)]
    exact I.dt_const s.step.inv hq

theorem Into.endsLike {c : Option CId} {h : Heap} {p : Ptr} {R : List Ptr} (O : Own h) {x : Filled Unit} {y : Out Unit} (l : Into c h p R x y) : EndsLike p x y := by
  match x, y, l with
  | .ok _ _, .ok _ _, ⟨_, v', R', hv, u, _⟩ => exact ⟨v', R', hv, u.good.rep⟩
  | .err _ _, .err _ _, ⟨e, l⟩ =>
    obtain ⟨h1, v', R', hv, u, s, f⟩ := l O
    exact ⟨e, v', R', hv, rep_frame u.good.rep ⟨fun q hq => f.mem (rep_ge u.good.rep q hq) (u.good.live q hq), fun _ hp => f.dt s.step.inv hp⟩⟩
  | .panic, .panic, _ => trivial
  | .loop, .loop, _ => trivial

theorem BInto.endsLike {X : CId → Prop} {h : Heap} {p : Ptr} {R : List Ptr} {x : Filled Unit} {y : Out Unit} (l : BInto X h R p x y) : EndsLike p x y := by
  match x, y, l with
  | .ok _ _, .ok _ _, ⟨_, _, v', R', hv, u⟩ => exact ⟨v', R', hv, u.good.rep⟩
  | .err _ _, .err _ _, ⟨e, _, v', R', hv, u⟩ => exact ⟨e, v', R', hv, u.good.rep⟩
  | .panic, .panic, _ => trivial
  | .loop, .loop, _ => trivial

/-- A value `v` at the node `p` of a memory in order; it is no shared constant, and its cache has been used for it. -/
structure Stands (h : Heap) (p : Ptr) (v : Val) : Prop where
  own : Own h
  ge : 5 ≤ p
  good : ∃ F, Good h (some p) v F
  used : ∀ d, (h.mem p).owner = some d → (h.caches d).isroot = false

section
variable {h h' : Heap} {p p' : Ptr} {v v' : Val}

theorem Stands.lt (s : Stands h p v) : p < h.next := by
  obtain ⟨F, g⟩ := s.good
  rcases Nat.lt_or_ge p h.next with h1 | h1
  · exact h1
  · exact absurd (Or.inl h1) (g.live p (rep_mem g.rep s.ge))

/-- `LoadFromMsgPack` on any value of any memory ends like `loadMsgPackT` on the tree. -/
theorem C129_msgpack_tree (E : Env) (s : Stands h p v) (b : Bytes) : EndsLike p (loadMsgPackT E v b) (loadMsgPackH E h p b) := by
  obtain ⟨F, g⟩ := s.good
  exact (loadMsgPackH_into E (Good.clear s.own s.ge g) rfl s.ge b).endsLike (s.own.clear s.lt s.used)

/-- `LoadFromJson` like `loadJsonT`. -/
theorem C129_json_tree (E : Env) (s : Stands h p v) (b : Bytes) : EndsLike p (loadJsonT E v b) (loadJsonH E h p b) := by
  obtain ⟨F, g⟩ := s.good
  exact (loadJsonH_into E (Good.clear s.own s.ge g) rfl s.ge b).endsLike (s.own.clear s.lt s.used)

/-- `LoadFromBson` like `loadBsonT`. -/
theorem C129_bson_tree (E : Env) (hid : Bytes) (s : Stands h p v) (b : Bytes) : EndsLike p (loadBsonT E hid v b) (loadBsonH E hid h p b) := by
  obtain ⟨F, g⟩ := s.good
  exact (loadBsonH_into E hid (X := anyCache) (Good.clear s.own s.ge g) rfl s.ge ⟨s.own.clear s.lt s.used, by simp [anyCache], by simp [anyCache]⟩ s.lt b).endsLike

/-! ## C129 -/

/-- C129 for `LoadFromMsgPack`: any bytes, any two memories, any two values that are the same but for what `Clear` empties. -/
theorem C129_msgpack (E : Env) (s : Stands h p v) (s' : Stands h' p' v') (hv : clearVal v = clearVal v') (b : Bytes) :
    SameEnd p p' (loadMsgPackH E h p b) (loadMsgPackH E h' p' b) := by
  have e : loadMsgPackT E v b = loadMsgPackT E v' b := by unfold loadMsgPackT; rw [hv]
  exact (C129_msgpack_tree E s b).two (e ▸ C129_msgpack_tree E s' b)

/-- C129 for `LoadFromJson`. -/
theorem C129_json (E : Env) (s : Stands h p v) (s' : Stands h' p' v') (hv : clearVal v = clearVal v') (b : Bytes) :
    SameEnd p p' (loadJsonH E h p b) (loadJsonH E h' p' b) := by
  have e : loadJsonT E v b = loadJsonT E v' b := by unfold loadJsonT; rw [hv]
  exact (C129_json_tree E s b).two (e ▸ C129_json_tree E s' b)

/-- C129 for `LoadFromBson`. -/
theorem C129_bson (E : Env) (hid : Bytes) (s : Stands h p v) (s' : Stands h' p' v') (hv : clearVal v = clearVal v') (b : Bytes) :
    SameEnd p p' (loadBsonH E hid h p b) (loadBsonH E hid h' p' b) := by
  have e : loadBsonT E hid v b = loadBsonT E hid v' b := by unfold loadBsonT; rw [hv]
  exact (C129_bson_tree E hid s b).two (e ▸ C129_bson_tree E hid s' b)

end

/-! ### Examples -/

/-- What is loaded half way stays: `{"a":{"b":true,"c":[` into a string. The document is refused, and the value is an object then. -/
example : loadBsonT envEx [] (.str [120]) [22, 0, 0, 0, 3, 97, 0, 15, 0, 0, 0, 8, 98, 0, 1, 4, 99, 0, 99, 0, 0, 0] =
    .err .badBsonLen (.obj true [([97], .obj true [([98], .tru), ([99], .arr [])])]) := by decide +kernel

/-- A member that is there twice is filled twice. -/
example : loadBsonT envEx [] (.obj false [([120], .nil)]) [27, 0, 0, 0, 3, 97, 0, 8, 0, 0, 0, 10, 98, 0, 0, 3, 97, 0, 8, 0, 0, 0, 10, 99, 0, 0, 0] =
    .ok () (.obj true [([97], .obj true [([98], .null), ([99], .null)])]) := by decide +kernel

/-- A MessagePack map loaded into an array: its members become elements. -/
example : loadMsgPackT envEx (.arr [.tru]) [0x82, 0xa1, 48, 7, 0xa1, 49, 8] = .ok () (.arr [.int 0 7, .int 0 8]) := by decide +kernel

/-- A JSON text that ends too early loaded into an object: the last member is nil. -/
example : loadJsonT envEx (.obj true [([98], .null)]) [123, 34, 97, 34, 58, 49, 44, 34, 98, 34, 58] =
    .err (.json .noObjBack 0 []) (.obj false [([97], .int 0 1), ([98], .nil)]) := by decide +kernel

/-- A new value stands. -/
example : Stands (oneValue .array) 5 (.arr []) := by
  have A := newValue_spec (inv_init id) .array rfl
  exact ⟨oneValue_own _, by decide, ⟨_, A.good⟩, fun d hd => by cases hd⟩

end Dxs.Heap
