import Verif.Tree.ParseDet
import Verif.EnvEx
import Verif.Heap.Example

/-!
# C127, C128: Go data is stored the same in every memory; `NewValueFrom` with and without a cache
-/

namespace Dxs.Reflect
open Dxs.Heap

/-- Two operations on nodes in two memories: both panic, or the nodes hold the same afterwards, up to the unused bits of a Float. -/
def SameOutcome (p p' : Ptr) (r r' : Res Heap) : Prop :=
  (∃ h h' v v' F F', r = .ok h ∧ r' = .ok h' ∧ Good h (some p) v F ∧ Good h' (some p') v' F' ∧ canon v = canon v') ∨ (r = .panic ∧ r' = .panic)

theorem Does.two {h h' : Heap} {F F' : List Ptr} {p p' : Ptr} {t : Res Val} {r r' : Res Heap} (d : Does h F p t r) (d' : Does h' F' p' t r') : SameOutcome p p' r r' := by
  match r, r', d, d' with
  | .ok _, .ok _, ⟨w, w0, G, e, hc, u⟩, ⟨w', w0', G', e', hc', u'⟩ =>
    rw [e] at e'
    cases e'
    exact Or.inl ⟨_, _, w, w', G, G', rfl, rfl, u.good, u'.good, hc.trans hc'.symm⟩
  | .panic, .panic, _, _ => exact Or.inr ⟨rfl, rfl⟩
  | .ok _, .panic, ⟨_, _, _, e, _⟩, d' => rw [show t = .panic from d'] at e; cases e
  | .panic, .ok _, d, ⟨_, _, _, e, _⟩ => rw [show t = .panic from d] at e; cases e

section
variable (E : Env) (d : Go) {h h' : Heap} {p p' : Ptr} {v v' : Val} {F F' : List Ptr}

/-! ## C127 -/

/-- C127 for `SetValue`: any data, any two memories in which the value is the same. -/
theorem C127_setValue (g : Good h (some p) v F) (g' : Good h' (some p') v' F') (h5 : 5 ≤ p) (h5' : 5 ≤ p') (hv : canon v = canon v') :
    SameOutcome p p' (setValue E h p d) (setValue E h' p' d) :=
  (goVal_does d g h5 hv).two (goVal_does d g' h5' rfl)

/-- C127 for `SetKeyvalue`, with any caches. -/
theorem C127_setKeyvalue (g : Good h (some p) v F) (g' : Good h' (some p') v' F') (h5 : 5 ≤ p) (h5' : 5 ≤ p') (hv : canon v = canon v') (k : Bytes)
    (c c' : Option CId) (hc : ∀ d, c = some d → d < h.nextC) (hc' : ∀ d, c' = some d → d < h'.nextC) :
    SameOutcome p p' (setKeyvalue E h p k c d) (setKeyvalue E h' p' k c' d) :=
  (goKey_does d g h5 hv k c hc).two (goKey_does d g' h5' rfl k c' hc')

/-- C127 for `SetIndexvalue`, with any caches. -/
theorem C127_setIndexvalue (g : Good h (some p) v F) (g' : Good h' (some p') v' F') (h5 : 5 ≤ p) (h5' : 5 ≤ p') (hv : canon v = canon v') (i : Nat)
    (c c' : Option CId) (hc : ∀ d, c = some d → d < h.nextC) (hc' : ∀ d, c' = some d → d < h'.nextC) :
    SameOutcome p p' (setIndexvalue E h p i c d) (setIndexvalue E h' p' i c' d) :=
  (goIdx_does d g h5 hv i c hc).two (goIdx_does d g' h5' rfl i c' hc')

/-- What becomes of the value is what the functions on trees say, a panic included. -/
theorem C127_function (g : Good h (some p) v F) (h5 : 5 ≤ p) :
    (∃ h1 w w0 G, setValue E h p d = .ok h1 ∧ goVal E v d = .ok w0 ∧ canon w = canon w0 ∧ Good h1 (some p) w G ∧ Frame h F h1) ∨
    (setValue E h p d = .panic ∧ goVal E v d = .panic) := by
  have a := goVal_does (E := E) d g h5 rfl
  generalize setValue E h p d = r at a
  match r, a with
  | .ok h1, ⟨w, w0, G, e, hc, u⟩ => exact Or.inl ⟨h1, w, w0, G, rfl, e, hc, u.good, u.frame⟩
  | .panic, a => exact Or.inr ⟨rfl, a⟩

end

/-! ## C128 -/

section
variable (E : Env) {d : Go} {s s' : St} {L L' : Nat → Option Live}

/-- C128: `NewValueFrom` of data that is stored (or over which it panics) gives the same in any two memories, cached or not. Missing: the data that is not
stored, see `C128_lost`. -/
theorem C128_partial (S : Sound s L) (S' : Sound s' L') (hd : Fills d = true) (cached cached' : Bool) (pick pick' : Option Nat) :
    (∃ r r' v v' F F', newValueFrom E s.heap d cached pick = .ok r ∧ newValueFrom E s'.heap d cached' pick' = .ok r' ∧
      Good r.2 (some r.1) v F ∧ Good r'.2 (some r'.1) v' F' ∧ canon v = canon v') ∨
    (newValueFrom E s.heap d cached pick = .panic ∧ newValueFrom E s'.heap d cached' pick' = .panic) := by
  have one : ∀ {s : St} {L : Nat → Option Live} (S : Sound s L) (cached : Bool) (pick : Option Nat),
      Does (if cached then newCacheValue s.heap .int pick else s.heap.new Node.zero).2 (Classical.choose (Classical.choose_spec (newFrom_blank S cached pick))) (if cached then newCacheValue s.heap .int pick else s.heap.new Node.zero).1
        (goVal E (.obj false []) d) (setValue E (if cached then newCacheValue s.heap .int pick else s.heap.new Node.zero).2 (if cached then newCacheValue s.heap .int pick else s.heap.new Node.zero).1 d) := by
    intro s L S cached pick
    obtain ⟨gx, h5⟩ := Classical.choose_spec (Classical.choose_spec (newFrom_blank S cached pick))
    have a := goVal_does (E := E) d gx h5 rfl
    cases cached
    · exact a
    · have e := goVal_new (E := E) hd (Classical.choose (newFrom_blank S true pick))
      simp only [if_true] at a ⊢
      rw [e] at a
      exact a
  rcases (one S cached pick).two (one S' cached' pick') with ⟨h, h', v, v', F, F', e, e', g, g', hc⟩ | ⟨e, e'⟩
  · exact Or.inl ⟨(_, h), (_, h'), v, v', F, F', by simp only [newValueFrom, e]; rfl, by simp only [newValueFrom, e']; rfl, g, g', hc⟩
  · exact Or.inr ⟨by simp only [newValueFrom, e]; rfl, by simp only [newValueFrom, e']; rfl⟩

/-- All other data is lost: nil, a `[]byte`, a value of a named type, an empty map of another type, a nil pointer or a value of an unsupported type becomes `{}` without a cache and some Int with one. -/
theorem C128_lost (S : Sound s L) (hd : Fills d = false) (pick : Option Nat) :
    (∃ r F, newValueFrom E s.heap d false pick = .ok r ∧ Good r.2 (some r.1) (.obj false []) F) ∧
    (∃ r c F, newValueFrom E s.heap d true pick = .ok r ∧ Good r.2 (some r.1) (.int 0 c) F) := by
  have keep : ∀ v, (v = .obj false [] ∨ ∃ c, v = .int 0 c) → goVal E v d = .ok v := by
    intro v hv
    match d, hd with
    | .nil, _ | .named _, _ | .rmap [], _ | .other, _ => rfl
    | .bytes b, _ => rcases hv with rfl | ⟨c, rfl⟩ <;> rfl
    | .nilPtr false, _ => rfl
  have clean : ∀ {v w : Val}, (v = .obj false [] ∨ ∃ c, v = .int 0 c) → canon w = canon v → w = v := by
    rintro v w (rfl | ⟨c, rfl⟩) hw
    · cases w <;> simp [canon] at hw ⊢
      rename_i ku kvs
      cases kvs with
      | nil => simpa using hw
      | cons a r => obtain ⟨k, x⟩ := a; simp [canonM] at hw
    · cases w <;> simp [canon] at hw ⊢
      exact hw
  have one : ∀ cached, ∃ r v F, newValueFrom E s.heap d cached pick = .ok r ∧ Good r.2 (some r.1) v F ∧ ∃ c, v = if cached then .int 0 c else .obj false [] := by
    intro cached
    obtain ⟨c, G, gx, h5⟩ := newFrom_blank S cached pick
    have a := goVal_does (E := E) d gx h5 rfl
    have hv : (if cached then Val.int 0 c else .obj false []) = .obj false [] ∨ ∃ c', (if cached then Val.int 0 c else .obj false []) = .int 0 c' := by
      cases cached
      · exact Or.inl rfl
      · exact Or.inr ⟨c, rfl⟩
    rw [keep _ hv] at a
    unfold newValueFrom
    generalize (if cached then newCacheValue s.heap .int pick else s.heap.new Node.zero) = r at a
    dsimp only
    generalize setValue E r.2 r.1 d = y at a
    match y, a with
    | .ok h1, ⟨w, w0, F, e, hc, u⟩ =>
      cases e
      obtain rfl := clean hv hc
      exact ⟨(r.1, h1), _, F, rfl, u.good, c, rfl⟩
    | .panic, a => cases a
  constructor
  · obtain ⟨r, v, F, e, g, c, rfl⟩ := one false
    exact ⟨r, F, e, g⟩
  · obtain ⟨r, v, F, e, g, c, rfl⟩ := one true
    exact ⟨r, c, F, e, g⟩

end

/-- `NewValueFrom([]byte{1, 2}, …)`: neither of the two values is a binary, and they differ. -/
theorem C128_bytes :
    let see := fun (cached : Bool) => (newValueFrom envEx (Heap.init id) (.bytes [1, 2]) cached none).bind (fun r => .ok (r.2.mem r.1).dt)
    see false = .ok .object ∧ see true = .ok .int := by
  decide +kernel

/-! ## Examples -/

/-- `map[string]interface{}{"a": []string{"x"}, "b": true}` stored in an empty object. -/
example : goVal envEx (.obj false []) (.map [([97], .rslice [.sc (.str [120])]), ([98], .sc (.bool true))]) = .ok (.obj true [([97], .arr [.str [120]]), ([98], .tru)]) := by decide +kernel

/-- A nil member in the way: `SetKeyvalue("a", 1)` panics. -/
example : goKey envEx (.obj true [([97], .nil)]) [97] (.sc (.int 1)) = .panic := by decide +kernel

/-- A struct with an unsigned field panics, but not under a name that is a nil pointer to a struct. -/
example : goVal envEx (.obj false []) (.struct [([97], .sc (.uint 1))]) = .panic ∧ goKey envEx (.obj true []) [97] (.nilPtr false) = .ok (.obj true []) := by decide +kernel

example : Fills (.struct []) = true ∧ Fills (.bytes [1]) = false := ⟨rfl, rfl⟩

end Dxs.Reflect
