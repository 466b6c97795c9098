import Verif.Heap.Merge
import Verif.Heap.MergeProg
import Verif.Heap.Step

/-!
# Comparing two values that have nothing in common

`Equal` changes both values. What it does to one of them can be done on its own (`patch`).
-/

namespace Dxs.Heap

/-- Only the nodes have changed, and not where they belong. -/
structure Kept (h h' : Heap) : Prop where
  next : h'.next = h.next
  caches : h'.caches = h.caches
  nextC : h'.nextC = h.nextC
  pool : h'.pool = h.pool
  grow : h'.grow = h.grow
  owner : ∀ q, (h'.mem q).owner = (h.mem q).owner

theorem Kept.refl (h : Heap) : Kept h h := ⟨rfl, rfl, rfl, rfl, rfl, fun _ => rfl⟩

theorem Kept.trans {a b c : Heap} (x : Kept a b) (y : Kept b c) : Kept a c :=
  ⟨y.next.trans x.next, y.caches.trans x.caches, y.nextC.trans x.nextC, y.pool.trans x.pool, y.grow.trans x.grow, fun q => (y.owner q).trans (x.owner q)⟩

theorem Kept.set (h : Heap) (p : Ptr) (n : Node) (ho : n.owner = (h.mem p).owner) : Kept h (h.set p n) := by
  refine ⟨rfl, rfl, rfl, rfl, rfl, fun q => ?_⟩
  by_cases hq : q = p
  · subst hq; rw [set_mem_same, ho]
  · rw [set_mem_ne _ _ hq]

theorem Kept.unescAll (E : Env) (h : Heap) (p : Ptr) : Kept h (Heap.unescAll E h p) := Kept.set h p _ rfl

theorem Kept.getString (E : Env) (h : Heap) (p : Ptr) : Kept h (h.set p (getString E .panic (h.mem p)).2) := by
  refine Kept.set h p _ ?_
  unfold Heap.getString
  cases (h.mem p).dt <;> rfl

theorem equalL_kept {rec : Heap → Option Ptr → Option Ptr → Res (Bool × Heap)} (hr : ∀ h a b x h', rec h a b = .ok (x, h') → Kept h h') :
    ∀ (ps qs : List (Option Ptr)) (h : Heap) (x : Bool) (h' : Heap), equalL rec h ps qs = .ok (x, h') → Kept h h'
  | [], _, h, x, h', e => by simp [equalL] at e; rw [← e.2]; exact Kept.refl h
  | _ :: _, [], h, x, h', e => by simp [equalL] at e
  | p :: ps, q :: qs, h, x, h', e => by
    rw [equalL] at e
    obtain ⟨⟨b, h1⟩, e1, e2⟩ := Res.bind_eq_ok.1 e
    have k := hr _ _ _ _ _ e1
    cases b with
    | false => simp at e2; rw [← e2.2]; exact k
    | true => simp at e2; exact k.trans (equalL_kept hr ps qs h1 x h' e2)

theorem equalM_kept {rec : Heap → Option Ptr → Option Ptr → Res (Bool × Heap)} (hr : ∀ h a b x h', rec h a b = .ok (x, h') → Kept h h') :
    ∀ (ps qs : List (Bytes × Option Ptr)) (h : Heap) (x : Bool) (h' : Heap), equalM rec h ps qs = .ok (x, h') → Kept h h'
  | [], _, h, x, h', e => by simp [equalM] at e; rw [← e.2]; exact Kept.refl h
  | _ :: _, [], h, x, h', e => by simp [equalM] at e; rw [← e.2]; exact Kept.refl h
  | (k, p) :: ps, (k', q) :: qs, h, x, h', e => by
    rw [equalM] at e
    split at e
    · simp at e; rw [← e.2]; exact Kept.refl h
    · obtain ⟨⟨b, h1⟩, e1, e2⟩ := Res.bind_eq_ok.1 e
      have k := hr _ _ _ _ _ e1
      cases b with
      | false => simp at e2; rw [← e2.2]; exact k
      | true => simp at e2; exact k.trans (equalM_kept hr ps qs h1 x h' e2)

theorem equal_kept (E : Env) : ∀ (f : Nat) (h : Heap) (a b : Option Ptr) (x : Bool) (h' : Heap), equal E f h a b = .ok (x, h') → Kept h h'
  | 0, h, a, b, x, h', e => by simp [equal] at e
  | f + 1, h, none, none, x, h', e => by simp [equal] at e; rw [← e.2]; exact Kept.refl h
  | f + 1, h, none, some _, x, h', e => by simp [equal] at e; rw [← e.2]; exact Kept.refl h
  | f + 1, h, some _, none, x, h', e => by simp [equal] at e; rw [← e.2]; exact Kept.refl h
  | f + 1, h, some p, some q, x, h', e => by
    have ih := equal_kept E f
    rw [equal] at e
    dsimp only at e
    have same : ∀ {y : Bool}, (Res.ok (y, h) : Res (Bool × Heap)) = .ok (x, h') → Kept h h' := by
      intro y e; cases e; exact Kept.refl h
    split at e
    · split at e
      · cases e; exact (Kept.getString E h p).trans (Kept.getString E _ q)
      · split at e <;> exact same e
    · split at e
      · exact same e
      · exact same e
      · exact same e
      · exact same e
      · split at e
        · exact same e
        · exact ((Kept.unescAll E h p).trans (Kept.unescAll E _ q)).trans (equalM_kept ih _ _ _ _ _ e)
      · exact equalL_kept ih _ _ _ _ _ e
      · split at e <;> exact same e

theorem Kept.avail {h h' : Heap} (k : Kept h h') (q : Ptr) : Avail h' q ↔ Avail h q := by
  unfold Avail; rw [k.next, k.nextC, k.caches]

theorem Kept.inv {h h' : Heap} (k : Kept h h') (I : Inv h) (hc : ∀ p < 5, (h'.mem p).dt = (h.mem p).dt) : Inv h' := by
  refine ⟨by rw [k.next]; exact I.next5, fun p hp => by rw [hc p hp]; exact I.const p hp, ?_, ?_, ?_, ?_, ?_, ?_, ?_⟩
  · rw [k.nextC, k.caches]; exact I.capPos
  · rw [k.nextC, k.caches]; exact I.lenLe
  · rw [k.nextC, k.caches]; exact I.nodup
  · rw [k.nextC, k.caches, k.next]; exact I.range
  · rw [k.nextC, k.caches]; exact I.disj
  · intro p c; rw [k.owner p, k.nextC]; exact I.owner p c
  · rw [k.pool, k.nextC]; exact I.pool

theorem Kept.step {h h' : Heap} (k : Kept h h') (I' : Inv h') {X : CId → Prop} : Step X h h' where
  inv := I'
  own O := by
    refine ⟨fun q hq => ?_, fun c hc q hq => ?_, fun c hc q hq => ?_, fun c hc hr => ?_⟩
    · rw [k.owner q]; exact O.fresh q (by rw [← k.next]; exact hq)
    · rw [k.owner q]; rw [k.nextC] at hc; rw [k.caches] at hq; exact O.slot c hc q hq
    · rw [k.owner q]; rw [k.nextC] at hc; rw [k.caches] at hq; exact O.tail c hc q hq
    · rw [k.nextC] at hc; rw [k.caches] at hr ⊢; exact O.root c hc hr
  nextC := by rw [k.nextC]; exact Nat.le_refl _
  pool := k.pool
  caches d _ _ := by rw [k.caches]
  roots d hd hr := by rw [k.nextC] at hd; rw [k.caches] at hr; exact ⟨hd, hr⟩
  owner _ q := Or.inl (k.owner q)
  next := by rw [k.next]; exact Nat.le_refl _
  slots d hd q hq := by rw [k.nextC] at hd; rw [k.caches] at hq; exact Or.inl ⟨hd, hq⟩

/-- The change to the nodes `F` alone. -/
def patch (h h' : Heap) (F : List Ptr) : Heap := { h with mem := fun q => if q ∈ F then h'.mem q else h.mem q }

section
variable {h h' : Heap} {F : List Ptr}

theorem patch_in {q : Ptr} (hq : q ∈ F) : (patch h h' F).mem q = h'.mem q := if_pos hq
theorem patch_out {q : Ptr} (hq : q ∉ F) : (patch h h' F).mem q = h.mem q := if_neg hq

theorem Kept.patch (k : Kept h h') (F : List Ptr) : Kept h (patch h h' F) := by
  refine ⟨rfl, rfl, rfl, rfl, rfl, fun q => ?_⟩
  by_cases hq : q ∈ F
  · rw [patch_in hq, k.owner]
  · rw [patch_out hq]

theorem Kept.unpatch (k : Kept h h') (F : List Ptr) : Kept (Heap.patch h h' F) h' := by
  refine ⟨k.next, k.caches, k.nextC, k.pool, k.grow, fun q => ?_⟩
  by_cases hq : q ∈ F
  · rw [patch_in hq]
  · rw [patch_out hq, k.owner]

/-- The change to one tree is a change of its own. -/
theorem Kept.one (k : Kept h h') (I : Inv h) (I' : Inv h') {a : Option Ptr} {v : Val} (hr : Rep h'.mem v a F) (hn : F.Nodup) (hl : ∀ q ∈ F, ¬Avail h q) :
    Upd h F (Heap.patch h h' F) a v F := by
  have hc : ∀ p < 5, ((Heap.patch h h' F).mem p).dt = (h.mem p).dt := by
    intro p hp
    rw [patch_out (fun hq => by have := rep_ge hr p hq; omega)]
  have I1 : Inv (Heap.patch h h' F) := (k.patch F).inv I hc
  refine ⟨⟨I1, rep_frame hr ⟨fun q hq => patch_in hq, fun p hp => by rw [hc p hp, I.const p hp, I'.const p hp]⟩, hn, fun q hq ha => hl q hq (((k.patch F).avail q).1 ha)⟩,
    ⟨I1, fun q hq => ((k.patch F).avail q).1 hq, fun q _ hq _ => patch_out hq⟩, fun q hq => Or.inl hq⟩

end

mutual
theorem compared_settled (E : Env) : ∀ v w : Val, settled v = true → settled w = true → compared E v w = (v, w)
  | .obj ku kvs, w, hv, hw => by
    cases w with
    | obj ku' kvs' =>
      simp only [settled, Bool.and_eq_true] at hv hw
      obtain ⟨rfl, hv⟩ := hv
      obtain ⟨rfl, hw⟩ := hw
      simp only [compared, comparedM_settled E true true kvs kvs' hv hw, unescKeys, if_true, ite_self]
    | _ => rfl
  | .arr xs, w, hv, hw => by
    cases w with
    | arr ys => simp only [settled] at hv hw; simp only [compared, comparedL_settled E xs ys hv hw]
    | _ => rfl
  | .str a, w, _, hw => by
    cases w with
    | raw _ => simp [settled] at hw
    | _ => rfl
  | .raw a, w, hv, _ => by simp [settled] at hv
  | .nil, _, _, _ | .int _ _, _, _, _ | .float _, _, _, _ | .double _, _, _, _ | .dateTime _, _, _, _ | .bin _ _, _, _, _ | .exbin _ _, _, _, _ | .null, _, _, _ | .tru, _, _, _
  | .fls, _, _, _ | .nan, _, _, _ | .inf, _, _, _ => rfl
theorem comparedM_settled (E : Env) (ku ku' : Bool) : ∀ xs ys : List (Bytes × Val), settledM xs = true → settledM ys = true → comparedM E ku ku' xs ys = (xs, ys)
  | [], _, _, _ => rfl
  | _ :: _, [], _, _ => by simp [comparedM]
  | (k, v) :: xs, (k', w) :: ys, hx, hy => by
    simp only [settledM, Bool.and_eq_true] at hx hy
    simp only [comparedM, compared_settled E v w hx.1 hy.1, comparedM_settled E ku ku' xs ys hx.2 hy.2, ite_self]
theorem comparedL_settled (E : Env) : ∀ xs ys : List Val, settledL xs = true → settledL ys = true → comparedL E xs ys = (xs, ys)
  | [], _, _, _ => rfl
  | _ :: _, [], _, _ => by simp [comparedL]
  | v :: xs, w :: ys, hx, hy => by
    simp only [settledL, Bool.and_eq_true] at hx hy
    simp only [comparedL, compared_settled E v w hx.1 hy.1, comparedL_settled E xs ys hx.2 hy.2, ite_self]
end

end Dxs.Heap
