import Verif.Load.Fill

/-!
# Parsers and the values in use
-/

namespace Dxs.Heap

section
variable {h h' : Heap} {L : Nat → Option Live} {c : Option CId}

/-- Nodes in use are not changed by a failed parser. -/
theorem Failed.mem (f : Failed c h h') {q : Ptr} (h5 : 5 ≤ q) (hq : ¬Avail h q) : h'.mem q = h.mem q := by
  rcases f with ⟨f, -⟩ | ⟨hm, r, v, F, m, h5r, s, rfl, -⟩
  · exact f.mem q h5 (by simp) hq
  · rw [freeValue_mem_ne, m.frame.mem q h5 (by simp) hq]
    rintro rfl
    exact hq (m.fresh q (rep_mem m.good.rep h5))

/-- A new value took its nodes from the cache, so the cache has been used. -/
theorem Run.root (s : Run c h h') {r : Ptr} (ha : Avail h r) (hl : ¬Avail h' r) : ∀ d, c = some d → (h'.caches d).isroot = false := by
  intro d hd
  rcases s.took d hd with hr | hr
  · exact hr.root
  · exact absurd ha (hr r hl)

/-- A parser of a new value failed, with a cache that no value in use has. -/
theorem WInv.failedAt (W : WInv h L) (i : Nat) (hc : ∀ d, c = some d → d < h.nextC ∧ d ∉ h.pool ∧ ∀ j y, L j = some y → d ∉ y.cs)
    (f : Failed c h h') : WInv h' (assign L i none) := by
  rcases f with ⟨f, s⟩ | ⟨hm, r, v, F, m, h5, s, rfl, -⟩
  · exact (W.pass f s.step (fun d hp hd => (hc d hd).2.1 hp)).drop i
  · have hr := rep_mem m.good.rep h5
    have W1 := W.create i c.toList (fun d hd => hc d (by simpa using hd)) h5 m.good m.frame m.fresh
      (s.step.mono (fun d hd => Or.inl (by simp [hd]))) (fun d hd => s.root (m.fresh r hr) (m.good.live r hr) d (by simpa using hd))
    have W2 := W1.free (assign_same _ _ _)
    rw [assign_assign] at W2
    exact W2

/-- A parser of a part failed: all values in use are still in order. -/
theorem WInv.failed (W : WInv h L) (hc : ∀ d, c = some d → Ready h d ∧ d ∉ h.pool) (f : Failed c h h') : WInv h' L := by
  cases c with
  | some d =>
    obtain ⟨hr, hp⟩ := hc d rfl
    obtain ⟨f, s⟩ := f.inner hr
    exact W.pass f s.step (fun e he hd => by cases hd; exact hp he)
  | none =>
    have W1 : WInv h (fun j => match j with | 0 => none | j + 1 => L j) := by
      refine ⟨W.inv, W.own, W.nodup, W.empty, ?_, ?_⟩
      · intro j y hy
        cases j with
        | zero => cases hy
        | succ j => exact W.held j y hy
      · intro j k y z hjk hy hz
        cases j with
        | zero => cases hy
        | succ j =>
          cases k with
          | zero => cases hz
          | succ k => exact W.apart j k y z (fun e => hjk (by rw [e])) hy hz
    have W2 := W1.failedAt 0 (by simp) f
    have e : ∀ j, assign (fun j => match j with | 0 => none | j + 1 => L j) 0 none (j + 1) = L j := fun j => assign_ne _ _ (by omega)
    refine ⟨W2.inv, W2.own, W2.nodup, W2.empty, ?_, ?_⟩
    · intro j y hy; exact W2.held (j + 1) y (by rw [e]; exact hy)
    · intro j k y z hjk hy hz; exact W2.apart (j + 1) (k + 1) y z (by omega) (by rw [e]; exact hy) (by rw [e]; exact hz)

/-- A value in use is loaded, or a part of it. -/
theorem WInv.fill {α : Type} (W : WInv h L) {i : Nat} {x : Live} (hx : L i = some x) {q : Ptr} {Fq : List Ptr}
    (hup : ∀ h' w' Fq', Upd h Fq h' (some q) w' Fq' → ∃ v' F', Upd h x.F h' (some x.p) v' F')
    (hc : ∀ d, c = some d → d ∈ x.cs ∧ Ready h d) {y : Out α} (f : Fill c h q Fq y) (e : y.mem = some h') :
    ∃ x' : Live, x'.p = x.p ∧ WInv h' (assign L i (some x')) ∧ ∀ k z, k ≠ i → L k = some z → ∀ r ∈ z.F, h'.mem r = h.mem r := by
  have key : ∀ {h1 : Heap} {v1 : Val} {F1 : List Ptr}, Upd h Fq h1 (some q) v1 F1 → Run c h h1 →
      ∃ x' : Live, x'.p = x.p ∧ WInv h1 (assign L i (some x')) ∧ ∀ k z, k ≠ i → L k = some z → ∀ r ∈ z.F, h1.mem r = h.mem r := by
    intro h1 v1 F1 u s
    obtain ⟨v', F', u'⟩ := hup h1 v1 F1 u
    refine ⟨⟨x.p, F', x.cs ++ newIds h h1⟩, rfl, W.step hx u' (s.step.mono (fun d hd => Or.inl (hc d hd).1)), ?_⟩
    intro k z hk hz r hr
    obtain ⟨v, g⟩ := (W.held k z hz).good
    exact u'.frame.mem r (rep_ge g.rep r hr) ((W.apart k i z x hk hz hx).nodes r hr) (g.live r hr)
  cases y with
  | ok a h1 =>
    cases e
    obtain ⟨v1, F1, u, s⟩ := f
    exact key u s
  | err x' h2 =>
    cases e
    obtain ⟨h1, v1, F1, u, s, f⟩ := f W.own
    obtain ⟨x', hp, W1, hm⟩ := key u s
    refine ⟨x', hp, W1.failed (fun d hd => ⟨s.ready d hd (hc d hd).2, ?_⟩) f, fun k z hk hz r hr => ?_⟩
    · rw [s.step.pool]; exact ((W.held i x hx).caches d (hc d hd).1).2
    · obtain ⟨v, g⟩ := (W1.held k z (by rw [assign_ne _ _ hk]; exact hz)).good
      rw [f.mem (rep_ge g.rep r hr) (g.live r hr), hm k z hk hz r hr]
  | panic => cases e
  | loop => cases e

/-- Replace the members of some nodes. -/
def scribble (h : Heap) (S : Ptr → Bool) (junk : Ptr → List (Bytes × Option Ptr)) : Heap :=
  { h with mem := fun q => if S q then { h.mem q with kvs := junk q } else h.mem q }

/-- The nodes that no value in use has can contain anything. -/
theorem WInv.scribble (W : WInv h L) {S : Ptr → Bool} (hS : ∀ q, S q = true → ∀ j y, L j = some y → q ∉ y.F) (junk : Ptr → List (Bytes × Option Ptr)) :
    WInv (Heap.scribble h S junk) L := by
  have ho : ∀ q, ((Heap.scribble h S junk).mem q).owner = (h.mem q).owner := by intro q; simp only [Heap.scribble]; split <;> rfl
  have hd : ∀ q, ((Heap.scribble h S junk).mem q).dt = (h.mem q).dt := by intro q; simp only [Heap.scribble]; split <;> rfl
  have I : Inv (Heap.scribble h S junk) := ⟨W.inv.next5, fun p hp => by rw [hd]; exact W.inv.const p hp, W.inv.capPos, W.inv.lenLe, W.inv.nodup,
    W.inv.range, W.inv.disj, fun p c hc => W.inv.owner p c (by rw [← ho]; exact hc), W.inv.pool⟩
  refine ⟨I, ⟨fun q hq => by rw [ho]; exact W.own.fresh q hq, fun c hc q hq => by rw [ho]; exact W.own.slot c hc q hq,
    fun c hc q hq => by rw [ho]; exact W.own.tail c hc q hq, W.own.root⟩, W.nodup, W.empty, ?_, W.apart⟩
  intro j y hy
  have a := W.held j y hy
  obtain ⟨v, g⟩ := a.good
  have hm : ∀ q ∈ y.F, (Heap.scribble h S junk).mem q = h.mem q := fun q hq => by
    simp only [Heap.scribble]
    rw [if_neg (fun h => hS q h j y hy hq)]
  refine ⟨⟨v, I, rep_frame g.rep ⟨hm, fun q _ => hd q⟩, g.nodup, g.live⟩, a.ge, fun q hq d hd => a.owner q hq d (by rw [← ho]; exact hd), a.slots, a.caches, a.root⟩

end

end Dxs.Heap
