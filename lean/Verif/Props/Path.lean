import Verif.Props.Api
import Verif.Heap.Force

/-!
# Properties of paths: C33, C34
-/

namespace Dxs.Heap

/-! ## C33: lookup along a path -/

/-- `ValueByPath(p..., q...)` is `ValueByPath(q...)` of `ValueByPath(p...)`, in every memory. -/
theorem C33_compose (E : Env) (path path' : List Bytes) : ∀ (h : Heap) (p : Ptr),
    valueByPath E h p (path ++ path') =
      match valueByPath E h p path with
      | (none, h') => (none, h')
      | (some q, h') => valueByPath E h' q path' := by
  induction path with
  | nil => intro h p; rfl
  | cons k path ih =>
    intro h p
    simp only [List.cons_append, valueByPath]
    rcases valueByName E h p k with ⟨_ | q, h1⟩
    · rfl
    · exact ih h1 q

/-- Specification: the child of a tree under a name (objects) or number (arrays). -/
def child (E : Env) : Val → Bytes → Option Val
  | .obj ku kvs, k => firstNamed E (.obj ku kvs) k
  | .arr xs, k =>
    match E.strToInt k with
    | some n => if 0 ≤ n.toInt then xs[n.toInt.toNat]? else none
    | none => none
  | _, _ => none

/-- Specification: the value at a path; a nil on the way or at the end counts as missing. -/
def resolve (E : Env) : Val → List Bytes → Option Val
  | v, [] => some v
  | v, k :: path =>
    match child E v k with
    | none => none
    | some .nil => none
    | some w => resolve E w path

theorem resolve_cons {E : Env} {v w : Val} {k : Bytes} {path : List Bytes} (h : child E v k = some w) (hw : w ≠ .nil) :
    resolve E v (k :: path) = resolve E w path := by
  rw [resolve, h]
  cases w <;> first | rfl | exact absurd rfl hw

mutual
/-- Every object in the tree has pairwise different names. -/
def DeepUnique (E : Env) : Val → Prop
  | .obj ku kvs => UniqueNames E (.obj ku kvs) ∧ DeepUniqueM E kvs
  | .arr xs => DeepUniqueL E xs
  | _ => True
def DeepUniqueL (E : Env) : List Val → Prop
  | [] => True
  | x :: xs => DeepUnique E x ∧ DeepUniqueL E xs
def DeepUniqueM (E : Env) : List (Bytes × Val) → Prop
  | [] => True
  | x :: xs => DeepUnique E x.2 ∧ DeepUniqueM E xs
end

theorem deepL {E : Env} {xs : List Val} (h : DeepUniqueL E xs) {i : Nat} {w : Val} (hw : xs[i]? = some w) : DeepUnique E w := by
  induction xs generalizing i with
  | nil => simp at hw
  | cons x xs ih =>
    cases i with
    | zero => simp at hw; subst hw; exact h.1
    | succ i => exact ih h.2 (by simpa using hw)

theorem deepM {E : Env} {xs : List (Bytes × Val)} (h : DeepUniqueM E xs) {i : Nat} {w : Val} (hw : (xs.map Prod.snd)[i]? = some w) :
    DeepUnique E w := by
  induction xs generalizing i with
  | nil => simp at hw
  | cons x xs ih =>
    cases i with
    | zero => simp at hw; subst hw; exact h.1
    | succ i => exact ih h.2 (by simpa using hw)

theorem DeepUnique.kid {E : Env} {v w : Val} {i : Nat} (h : DeepUnique E v) (hw : (Val.kids v)[i]? = some w) : DeepUnique E w := by
  cases v <;> simp only [Val.kids] at hw
  case obj => exact deepM h.2 hw
  case arr => exact deepL h hw
  all_goals simp at hw

/-- `ValueByName` on any tree. -/
theorem valueByName_tree {E : Env} (L : KeyLaws E) {h : Heap} {p : Ptr} {v : Val} {F : List Ptr}
    (g : Good h (some p) v F) (hu : DeepUnique E v) (k : Bytes) :
    Frame h F (valueByName E h p k).2 ∧
    ∃ G, Good (valueByName E h p k).2 (valueByName E h p k).1 ((child E v k).getD .nil) G ∧ (∀ q ∈ G, q ∈ F) ∧
      ∀ w, child E v k = some w → DeepUnique E w := by
  have hnil : ∀ v', (∀ ku kvs, v' ≠ .obj ku kvs) → (∀ xs, v' ≠ .arr xs) → child E v' k = none := by
    intro v' h1 h2; cases v' <;> first | rfl | exact absurd rfl (h1 _ _) | exact absurd rfl (h2 _)
  have hdt := rep_dt g.rep
  by_cases ho : ∃ ku kvs, v = .obj ku kvs
  · obtain ⟨ku, kvs, rfl⟩ := ho
    obtain ⟨u, G, gg, hG⟩ := valueByName_obj E g k
    have hun := hu.1
    have e : child E (.obj ku kvs) k = objOld E ku kvs k := by
      rw [objOld_members L ku kvs hun, ← firstNamed_get]; rfl
    rw [e]
    refine ⟨u.frame, G, gg, hG, ?_⟩
    intro w hw
    unfold objOld at hw
    simp only [Option.bind_eq_some_iff] at hw
    obtain ⟨i, -, hi⟩ := hw
    exact hu.kid (i := i) hi
  · by_cases ha : ∃ xs, v = .arr xs
    · obtain ⟨xs, rfl⟩ := ha
      have hlen := g.arr_len
      unfold valueByName
      rw [show (h.mem p).dt = .array from hdt]
      simp only [hlen]
      by_cases hr : inRange (strIdx E k) xs.length = true
      · rw [if_pos hr]
        have hr' := inRange_iff.1 hr
        obtain ⟨x, hx⟩ : ∃ x, xs[(strIdx E k).toNat]? = some x := ⟨_, List.getElem?_eq_getElem (by omega)⟩
        have e : child E (.arr xs) k = some x := by
          unfold strIdx at hr' hx
          simp only [child]
          cases hs : E.strToInt k with
          | none => rw [hs] at hr'; simp at hr'
          | some n =>
            rw [hs] at hr' hx
            simp only [Option.map_some, Option.getD_some] at hr' hx
            simp only [if_pos hr'.1, hx]
        obtain ⟨b, Fi, hb, gb, hFi, -⟩ := g.kid (i := (strIdx E k).toNat) (x := x) (by simpa [Val.kids] using hx)
        rw [kids_arr hdt] at hb
        rw [e, hb]
        exact ⟨Frame.refl g.inv F, Fi, gb, hFi, fun w hw => by cases hw; exact hu.kid (i := (strIdx E k).toNat) hx⟩
      · rw [if_neg hr]
        have e : child E (.arr xs) k = none := by
          simp only [child]
          unfold strIdx at hr
          rw [inRange_iff] at hr
          cases hs : E.strToInt k with
          | none => rfl
          | some n =>
            rw [hs] at hr
            simp only [Option.map_some, Option.getD_some] at hr
            simp only
            split
            · rw [List.getElem?_eq_none]; omega
            · rfl
        rw [e]
        exact ⟨Frame.refl g.inv F, [], ⟨g.inv, ⟨rfl, rfl⟩, by simp, by simp⟩, by simp, by simp⟩
    · have e : child E v k = none := hnil v (fun ku kvs h => ho ⟨ku, kvs, h⟩) (fun xs h => ha ⟨xs, h⟩)
      have hne := rep_ne_nil g.rep
      have e2 : valueByName E h p k = (none, h) := by
        unfold valueByName
        rw [hdt]
        cases v <;> simp only [Val.vt] <;> first | exact absurd ⟨_, _, rfl⟩ ho | exact absurd ⟨_, rfl⟩ ha | exact absurd rfl hne | rfl
      rw [e, e2]
      exact ⟨Frame.refl g.inv F, [], ⟨g.inv, ⟨rfl, rfl⟩, by simp, by simp⟩, by simp, by simp⟩

/-- On trees with unique names the pointer found represents the value at that path, nil if it is missing; nothing outside
the tree changes. -/
theorem C33_tree {E : Env} (L : KeyLaws E) : ∀ (path : List Bytes) {h : Heap} {p : Ptr} {v : Val} {F : List Ptr},
    Good h (some p) v F → DeepUnique E v →
    Frame h F (valueByPath E h p path).2 ∧
    match resolve E v path with
    | none => (valueByPath E h p path).1 = none
    | some w => ∃ q G, (valueByPath E h p path).1 = some q ∧ Good (valueByPath E h p path).2 (some q) w G
  | [], h, p, v, F, g, _ => ⟨Frame.refl g.inv F, p, F, rfl, g⟩
  | k :: path, h, p, v, F, g, hu => by
    obtain ⟨fr, G, gg, hG, hdu⟩ := valueByName_tree L g hu k
    unfold valueByPath
    rcases hr : valueByName E h p k with ⟨r, h1⟩
    rw [hr] at fr gg
    simp only at fr gg ⊢
    cases r with
    | none =>
      refine ⟨fr, ?_⟩
      have hn : (child E v k).getD .nil = .nil := by
        rcases rep_cases gg.rep with ⟨e, -⟩ | ⟨q, _, e, _⟩ | ⟨q, _, e, _⟩
        · exact e
        · cases e
        · cases e
      have : resolve E v (k :: path) = none := by
        rw [resolve]
        cases hc : child E v k with
        | none => rfl
        | some w => rw [hc] at hn; simp only [Option.getD_some] at hn; subst hn; rfl
      rw [this]
    | some q =>
      have hne := rep_ne_nil gg.rep
      obtain ⟨w, hc⟩ : ∃ w, child E v k = some w := by
        cases hc : child E v k with
        | none => rw [hc] at hne; exact absurd rfl hne
        | some w => exact ⟨w, rfl⟩
      rw [hc] at gg hne
      simp only [Option.getD_some] at gg hne
      rw [resolve_cons hc hne]
      obtain ⟨fr2, hres⟩ := C33_tree L path gg (hdu w hc)
      exact ⟨fr.trans fr2 (fun x hx => Or.inl (hG x hx)), hres⟩

/-- The readers return the default exactly when there is nothing at the path (any memory, any getter). -/
theorem C33_default {α : Type} (E : Env) (read : Node → α) (h : Heap) (v : Option Ptr) (dflt : α) (path : List Bytes) :
    byPath E read h v dflt path =
      match v.bind (fun p => (valueByPath E h p path).1) with
      | none => (dflt, (byPath E read h v dflt path).2)
      | some q => (read ((byPath E read h v dflt path).2.mem q), (byPath E read h v dflt path).2) := by
  cases v with
  | none => rfl
  | some p =>
    simp only [byPath, Option.bind_some]
    rcases valueByPath E h p path with ⟨_ | q, h1⟩ <;> rfl

/-- The same for trees: the default if and only if the path is missing in the tree, otherwise the value read there. -/
theorem C33_reads {α : Type} {E : Env} (L : KeyLaws E) (read : Node → α) {h : Heap} {p : Ptr} {v : Val} {F : List Ptr}
    (g : Good h (some p) v F) (hu : DeepUnique E v) (dflt : α) (path : List Bytes) :
    match resolve E v path with
    | none => (byPath E read h (some p) dflt path).1 = dflt
    | some w => ∃ q G, Good (byPath E read h (some p) dflt path).2 (some q) w G ∧
        (byPath E read h (some p) dflt path).1 = read ((byPath E read h (some p) dflt path).2.mem q) := by
  obtain ⟨-, hh⟩ := C33_tree L path g hu
  unfold byPath
  simp only
  rcases hr : valueByPath E h p path with ⟨r, h1⟩
  rw [hr] at hh
  cases hc : resolve E v path with
  | none => rw [hc] at hh; simp only at hh; subst hh; rfl
  | some w =>
    rw [hc] at hh
    obtain ⟨q, G, e, gg⟩ := hh
    simp only at e
    subst e
    exact ⟨q, G, gg, rfl⟩

/-- And for `StringByPath`. -/
theorem C33_string (E : Env) (json : Res Bytes) (h : Heap) (v : Option Ptr) (dflt : Bytes) (path : List Bytes) :
    (stringByPath E json h v dflt path).1 =
      match v with
      | none => .ok dflt
      | some p =>
        match valueByPath E h p path with
        | (none, _) => .ok dflt
        | (some q, h1) => (getString E json (h1.mem q)).1 := by
  unfold stringByPath
  cases v with
  | none => rfl
  | some p => simp only; rcases valueByPath E h p path with ⟨_ | q, h1⟩ <;> rfl

/-- Two paths of the example: `a`,`2` is the string `h`; `a`,`1` is nil, so missing. -/
theorem exDeep : DeepUnique envEx (.obj false exKvs) := by
  refine ⟨by unfold UniqueNames; decide, trivial, ⟨trivial, trivial, trivial, trivial⟩, trivial⟩
example : resolve envEx (.obj false exKvs) [[97], [50]] = some (.str [104]) ∧ resolve envEx (.obj false exKvs) [[97], [49]] = none := by decide
example : (byPath envEx (getInt envEx) exHeap (some 5) 77 [[97], [49]]).1 = 77 :=
  C33_reads (envEx_keyLaws false) (getInt envEx) exGood exDeep 77 [[97], [49]]

/-! ## C34: `ForcePath` -/

/-- The value at the end of the path: the old one if it has the type, otherwise a new one. -/
def ForcedValue (t : VT) (old : Option Val) (w : Val) : Prop :=
  (∀ x, old = some x → x ≠ .nil → x.vt = t → w = x) ∧ ((∀ x, old = some x → x ≠ .nil → x.vt ≠ t) → ∃ c, w = blankVal t c)

/-- `ForcePath(vt, path...)` returns a node, `ValueByPath(path...)` afterwards is that node and finds it without further change;
it has the type asked for, and the tree is the old one with the steps of the path made containers (`forceVal`). A value of that type that
was there already is kept, otherwise there is a new one.
Missing: nil members and array indices beyond the length on the way (`Forceable`), for which it is false, see below. -/
theorem C34_force_partial {E : Env} (t : VT) (path : List Bytes) {h : Heap} {p : Ptr} {v : Val} {F : List Ptr}
    (g : Good h (some p) v F) (h5 : 5 ≤ p) (hf : Forceable E v path) :
    ∃ q h' w F' G, forcePath E h p t path = .ok (q, h') ∧ valueByPath E h' p path = (some q, h') ∧ (h'.mem q).dt = t ∧
      Upd h F h' (some p) (forceVal E v path w) F' ∧ Good h' (some q) w G ∧ ForcedValue t (forceOld E v path) w := by
  obtain ⟨q, h', w, F', G, h1, h2, h3, h4, h6⟩ := forceLoop_ok t path g h5 hf none none []
  refine ⟨q, h', w, F', G, h1, h2, by rw [rep_dt h4.rep, h6.vt.1], h3, h4, ?_, ?_⟩
  · rintro x e hn ht
    rw [e] at h6
    simpa [Slot, hn, ht] using h6
  · intro hx
    cases ho : forceOld E v path with
    | none => rw [ho] at h6; exact h6
    | some x =>
      rw [ho] at h6
      unfold Slot at h6
      dsimp only at h6
      split at h6
      · rename_i hc; exact absurd hc.2 (hx x ho hc.1)
      · exact h6

mutual
/-- Objects of objects and scalars: no arrays and no nil members. -/
def OnlyObjects : Val → Prop
  | .obj _ kvs => OnlyObjectsM kvs
  | .arr _ => False
  | .nil => False
  | _ => True
def OnlyObjectsM : List (Bytes × Val) → Prop
  | [] => True
  | x :: xs => OnlyObjects x.2 ∧ OnlyObjectsM xs
end

theorem onlyM {xs : List (Bytes × Val)} (h : OnlyObjectsM xs) {i : Nat} {w : Val} (hw : (xs.map Prod.snd)[i]? = some w) : OnlyObjects w := by
  induction xs generalizing i with
  | nil => simp at hw
  | cons x xs ih =>
    cases i with
    | zero => simp at hw; subst hw; exact h.1
    | succ i => exact ih h.2 (by simpa using hw)

theorem forceable_only {E : Env} : ∀ (path : List Bytes) (v : Val), path ≠ [] → OnlyObjects v → Forceable E v path := by
  have hold : ∀ (v : Val) (k : Bytes), OnlyObjects v → StepOk E v k ∧ OnlyObjects (nextBox E v k) := by
    intro v k h
    cases v with
    | obj ku kvs =>
      have ho : ∀ w, objOld E ku kvs k = some w → OnlyObjects w := by
        intro w hw
        obtain ⟨i, -, hi⟩ := Option.bind_eq_some_iff.1 hw
        exact onlyM h hi
      refine ⟨fun hn => (ho _ hn).elim, ?_⟩
      simp only [nextBox, boxAt]
      cases hw : objOld E ku kvs k with
      | none => exact trivial
      | some w =>
        rw [Option.filter_some]
        split
        · exact ho w hw
        · exact trivial
    | arr xs => exact h.elim
    | nil => exact h.elim
    | _ => exact ⟨trivial, trivial⟩
  intro path
  induction path with
  | nil => intro v h; exact absurd rfl h
  | cons k path ih =>
    intro v _ hv
    obtain ⟨h1, h2⟩ := hold v k hv
    cases path with
    | nil => exact ⟨h1, fun xs e => by subst e; exact hv.elim⟩
    | cons k2 path => exact ⟨h1, ih _ (by simp) h2⟩

/-- For nested objects every path works. -/
theorem C34_objects {E : Env} (t : VT) (path : List Bytes) (hp : path ≠ []) {h : Heap} {p : Ptr} {v : Val} {F : List Ptr}
    (g : Good h (some p) v F) (h5 : 5 ≤ p) (hv : OnlyObjects v) :
    ∃ q h' w F' G, forcePath E h p t path = .ok (q, h') ∧ valueByPath E h' p path = (some q, h') ∧ (h'.mem q).dt = t ∧
      Upd h F h' (some p) (forceVal E v path w) F' ∧ Good h' (some q) w G ∧ ForcedValue t (forceOld E v path) w :=
  C34_force_partial t path g h5 (forceable_only path v hp hv)

/-- False in general: on an object with an array `a`, the path `a`, `7` appends to the array, and the lookup afterwards finds nothing. -/
theorem C34_index_counterexample :
    ∃ (h : Heap) (p : Ptr) (v : Val) (F : List Ptr) (q : Ptr) (h' : Heap), Good h (some p) v F ∧ v.vt = .object ∧
      forcePath envEx h p .int [[97], [55]] = .ok (q, h') ∧ (valueByPath envEx h' p [[97], [55]]).1 = none := by
  have hd : (match forcePath envEx exHeap 5 .int [[97], [55]] with
      | .ok r => decide ((valueByPath envEx r.2 5 [[97], [55]]).1 = none)
      | _ => false) = true := by decide
  rcases hf : forcePath envEx exHeap 5 .int [[97], [55]] with ⟨q, h'⟩ | _ | _ | _ <;> rw [hf] at hd
  · exact ⟨exHeap, 5, _, _, q, h', exGood, rfl, hf, of_decide_eq_true hd⟩
  all_goals cases hd

/-- And a nil member panics. -/
theorem C34_nil_panics {E : Env} {h : Heap} {p : Ptr} {ku : Bool} {kvs : List (Bytes × Val)} {F : List Ptr}
    (g : Good h (some p) (.obj ku kvs) F) (k : Bytes) (t : VT) (hn : objOld E ku kvs k = some .nil) : forcePath E h p t [k] = .panic :=
  setKey_nil_panics E g k t hn

/-- The example: `1`,`x` turns the string into an object; the array element `3` is one past the end. -/
example : Forceable envEx (.obj false exKvs) [[97], [51], [120]] := by
  have e1 : nextBox envEx (.obj false exKvs) [97] = .arr [.tru, .nil, .str [104]] := by decide
  have e2 : nextBox envEx (.arr [.tru, .nil, .str [104]]) [51] = .obj false [] := by decide
  simp only [Forceable, e1, e2, StepOk]
  refine ⟨by decide, by decide, by decide, fun xs h => by cases h⟩
/-- The string `h` at `a`, `2` is kept; there is nothing at `a`, `3`, `x`. -/
example : forceOld envEx (.obj false exKvs) [[97], [50]] = some (.str [104]) ∧ forceOld envEx (.obj false exKvs) [[97], [51], [120]] = none := by decide
example : OnlyObjects (.obj false [([97], .obj true [([98], .int 0 1)]), ([99], .str [1])]) := ⟨⟨trivial, trivial⟩, trivial, trivial⟩

end Dxs.Heap
