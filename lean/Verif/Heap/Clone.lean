import Verif.Heap.Ops
import Verif.Heap.CopyStep

/-!
# Clone on trees
-/

namespace Dxs.Heap

/-- A new tree was made in memory that was available; nothing else changed. -/
structure Made (h : Heap) (q : Ptr) (h' : Heap) (v : Val) (F : List Ptr) : Prop where
  good : Good h' (some q) v F
  frame : Frame h [] h'
  fresh : ∀ r ∈ F, Avail h r

/-- Adding made parts is an update. -/
theorem UpdX.absorb {X : List Ptr} {h h' : Heap} {F F' : List Ptr} {a : Option Ptr} {v : Val} (u : UpdX X h F h' a v F') (hX : ∀ q ∈ X, Avail h q) :
    Upd h F h' a v F' :=
  ⟨u.good, u.frame, fun q hq => (u.sub q hq).imp id (fun h => Or.inr (h.elim (hX q) id))⟩

theorem Good.upd_frame {h h' : Heap} {a : Option Ptr} {v : Val} {F : List Ptr} (g : Good h a v F) (f : Frame h [] h') : Upd h F h' a v F :=
  ⟨g.frame f (by simp), f.mono (by simp), fun _ hq => Or.inl hq⟩

/-- Nodes that exist. -/
theorem Frame.not_avail {h h' : Heap} {F : List Ptr} (f : Frame h F h') {q : Ptr} (hq : ¬Avail h q) : ¬Avail h' q := fun h => hq (f.avail q h)

mutual
/-- The tree `clone` makes (dxvalue.go:553-578): it copies the scalar cells, the strings, the structure, and whether the
keys are unescaped. -/
def cloneVal : Val → Val
  | .obj ku kvs => .obj ku (cloneVals kvs)
  | .arr xs => .arr (cloneValL xs)
  | .int _ c => .int 0 c
  | .bin _ _ => .bin 0 []
  | .exbin _ _ => .exbin 0 []
  | v => v
/-- The members. -/
def cloneVals : List (Bytes × Val) → List (Bytes × Val)
  | [] => []
  | (k, v) :: kvs => (k, cloneVal v) :: cloneVals kvs
/-- The elements. -/
def cloneValL : List Val → List Val
  | [] => []
  | v :: vs => cloneVal v :: cloneValL vs
end

mutual
/-- No nil anywhere. -/
def noNil : Val → Bool
  | .nil => false
  | .obj _ kvs => noNilM kvs
  | .arr xs => noNilL xs
  | _ => true
/-- The members. -/
def noNilM : List (Bytes × Val) → Bool
  | [] => true
  | (_, v) :: kvs => noNil v && noNilM kvs
/-- The elements. -/
def noNilL : List Val → Bool
  | [] => true
  | v :: vs => noNil v && noNilL vs
end

mutual
/-- The height of a tree. -/
def height : Val → Nat
  | .obj _ kvs => heightM kvs + 1
  | .arr xs => heightL xs + 1
  | _ => 1
/-- The members. -/
def heightM : List (Bytes × Val) → Nat
  | [] => 0
  | (_, v) :: kvs => max (height v) (heightM kvs)
/-- The elements. -/
def heightL : List Val → Nat
  | [] => 0
  | v :: vs => max (height v) (heightL vs)
end

/-- What is true of the outcome of `clone`. -/
def CloneOk (v : Val) (f : Nat) (h : Heap) : Res (Ptr × Heap) → Prop
  | .ok (r, h') => noNil v = true ∧ ∃ F', Made h r h' (cloneVal v) F'
  | .err _ => False
  | .panic => noNil v = false
  | .loop => f < height v

/-- No node that `clone` would share instead of copying it. -/
def Copyable (h : Heap) (F : List Ptr) : Prop := ∀ q ∈ F, (h.mem q).dt.ord < 11

/-- The sources are still there. -/
theorem repM_frame_keep {h h' : Heap} {kvs : List (Bytes × Val)} {ps : List (Bytes × Option Ptr)} {G R : List Ptr} (I : Inv h) (f : Frame h R h')
    (hr : RepM h.mem kvs ps G) (hl : ∀ q ∈ G, ¬Avail h q) (hd : ∀ q ∈ G, q ∉ R) : RepM h'.mem kvs ps G :=
  repM_frame hr ⟨fun q hq => f.mem q (repM_ge hr q hq) (hd q hq) (hl q hq), fun _ hp => I.dt_const f.inv hp⟩

theorem repL_frame_keep {h h' : Heap} {xs : List Val} {ps : List (Option Ptr)} {G R : List Ptr} (I : Inv h) (f : Frame h R h')
    (hr : RepL h.mem xs ps G) (hl : ∀ q ∈ G, ¬Avail h q) (hd : ∀ q ∈ G, q ∉ R) : RepL h'.mem xs ps G :=
  repL_frame hr ⟨fun q hq => f.mem q (repL_ge hr q hq) (hd q hq) (hl q hq), fun _ hp => I.dt_const f.inv hp⟩

/-- What is true of the outcome of a loop that appends to `r`. -/
def LoopOk (nn : Bool) (hgt : Nat) (f : Nat) (h : Heap) (r : Ptr) (R : List Ptr) (v' : Val) : Res Heap → Prop
  | .ok h' => nn = true ∧ ∃ R', Upd h R h' (some r) v' R'
  | .err _ => False
  | .panic => nn = false
  | .loop => f < hgt

theorem cloneM_spec {f : Nat} {rec : Heap → Option Ptr → Res (Ptr × Heap)} {c : Option CId} {n0 : Nat} (hc : ∀ d, c = some d → d < n0)
    (hn : ∀ h q r h', n0 ≤ h.nextC → Inv h → rec h q = .ok (r, h') → h.nextC ≤ h'.nextC)
    (hrec : ∀ h q v F, n0 ≤ h.nextC → Inv h → Rep h.mem v q F → F.Nodup → (∀ r ∈ F, ¬Avail h r) → Copyable h F → CloneOk v f h (rec h q)) (r : Ptr) :
    ∀ (kvs : List (Bytes × Val)) (ps : List (Bytes × Option Ptr)) (h : Heap) (G R : List Ptr) (ku : Bool) (acc : List (Bytes × Val)), n0 ≤ h.nextC →
      RepM h.mem kvs ps G → G.Nodup → (∀ q ∈ G, ¬Avail h q) → (∀ q ∈ G, q ∉ R) → Copyable h G → Good h (some r) (.obj ku acc) R →
      LoopOk (noNilM kvs) (heightM kvs) f h r R (.obj ku (acc ++ cloneVals kvs)) (cloneM rec r h ps)
  | [], ps, h, G, R, ku, acc, hx, hr, hnd, hl, hd, hpl, g => by
    obtain ⟨rfl, rfl⟩ := hr
    exact ⟨rfl, R, by simpa [cloneVals] using g.upd_refl⟩
  | (k, v) :: kvs, ps, h, G, R, ku, acc, hx, hr, hnd, hl, hd, hpl, g => by
    obtain ⟨q, qs, F1, F2, rfl, rfl, h1, h2⟩ := hr
    obtain ⟨hn1, hn2, hn12⟩ := List.nodup_append.1 hnd
    have ok := hrec h q v F1 hx g.inv h1 hn1 (fun q hq => hl q (by simp [hq])) (fun q hq => hpl q (by simp [hq]))
    have hnx := hn h q
    rw [cloneM]
    dsimp only
    generalize rec h q = res at ok hnx
    match res with
    | .err e => exact ok.elim
    | .panic => simp only [CloneOk] at ok; simp [Res.bind_panic, LoopOk, noNilM, ok]
    | .loop => simp only [CloneOk] at ok; simp only [Res.bind_loop, LoopOk, heightM]; omega
    | .ok (q', h') =>
      obtain ⟨hnn, F', md⟩ := ok
      simp only [Res.bind_ok]
      have hx' : n0 ≤ h'.nextC := Nat.le_trans hx (hnx q' h' hx g.inv rfl)
      have u1 := g.upd_frame md.frame
      have hdis : ∀ x ∈ F', x ∉ R := fun x hx hR => g.live x hR (md.fresh x hx)
      obtain ⟨R1, u2⟩ := obj_snoc u1.good md.good hdis k
      have u3 := (UpdX.trans u1 u2).absorb md.fresh
      have hd2 : ∀ x ∈ F2, x ∉ R1 := by
        intro x hx hR
        rcases u3.sub x hR with h | h | h
        · exact hd x (by simp [hx]) h
        · cases h
        · exact hl x (by simp [hx]) h
      have hl2 := fun x (hx : x ∈ F2) => hl x (List.mem_append_right F1 hx)
      have ih := cloneM_spec hc hn hrec r kvs qs _ F2 R1 ku (acc ++ [(k, cloneVal v)]) (by simpa using hx')
        (repM_frame_keep g.inv u3.frame h2 hl2 (fun x hx => hd x (by simp [hx]))) hn2
        (fun x hx => u3.frame.not_avail (hl2 x hx)) hd2
        (fun x hx => by
          rw [u3.frame.mem x (repM_ge h2 x hx) (hd x (by simp [hx])) (hl2 x hx)]; exact hpl x (by simp [hx]))
        u2.good
      generalize cloneM rec r _ qs = res2 at ih
      match res2 with
      | .err e => exact ih.elim
      | .panic => simp only [LoopOk] at ih; simp [LoopOk, noNilM, ih]
      | .loop => simp only [LoopOk] at ih; simp only [LoopOk, heightM]; omega
      | .ok h2 =>
        obtain ⟨hnn2, R2, u4⟩ := ih
        refine ⟨by simp [noNilM, hnn, hnn2], R2, ?_⟩
        have := UpdX.trans u3 u4
        simpa [cloneVals] using this

theorem cloneL_spec {f : Nat} {rec : Heap → Option Ptr → Res (Ptr × Heap)} {c : Option CId} {n0 : Nat} (hc : ∀ d, c = some d → d < n0)
    (hn : ∀ h q r h', n0 ≤ h.nextC → Inv h → rec h q = .ok (r, h') → h.nextC ≤ h'.nextC)
    (hrec : ∀ h q v F, n0 ≤ h.nextC → Inv h → Rep h.mem v q F → F.Nodup → (∀ r ∈ F, ¬Avail h r) → Copyable h F → CloneOk v f h (rec h q)) (r : Ptr) :
    ∀ (xs : List Val) (ps : List (Option Ptr)) (h : Heap) (G R : List Ptr) (acc : List Val), n0 ≤ h.nextC →
      RepL h.mem xs ps G → G.Nodup → (∀ q ∈ G, ¬Avail h q) → (∀ q ∈ G, q ∉ R) → Copyable h G → Good h (some r) (.arr acc) R →
      LoopOk (noNilL xs) (heightL xs) f h r R (.arr (acc ++ cloneValL xs)) (cloneL rec r h ps)
  | [], ps, h, G, R, acc, hx, hr, hnd, hl, hd, hpl, g => by
    obtain ⟨rfl, rfl⟩ := hr
    exact ⟨rfl, R, by simpa [cloneValL] using g.upd_refl⟩
  | v :: kvs, ps, h, G, R, acc, hx, hr, hnd, hl, hd, hpl, g => by
    obtain ⟨q, qs, F1, F2, rfl, rfl, h1, h2⟩ := hr
    obtain ⟨hn1, hn2, hn12⟩ := List.nodup_append.1 hnd
    have ok := hrec h q v F1 hx g.inv h1 hn1 (fun q hq => hl q (by simp [hq])) (fun q hq => hpl q (by simp [hq]))
    have hnx := hn h q
    rw [cloneL]
    generalize rec h q = res at ok hnx
    match res with
    | .err e => exact ok.elim
    | .panic => simp only [CloneOk] at ok; simp [Res.bind_panic, LoopOk, noNilL, ok]
    | .loop => simp only [CloneOk] at ok; simp only [Res.bind_loop, LoopOk, heightL]; omega
    | .ok (q', h') =>
      obtain ⟨hnn, F', md⟩ := ok
      simp only [Res.bind_ok]
      have hx' : n0 ≤ h'.nextC := Nat.le_trans hx (hnx q' h' hx g.inv rfl)
      have u1 := g.upd_frame md.frame
      have hdis : ∀ x ∈ F', x ∉ R := fun x hx hR => g.live x hR (md.fresh x hx)
      obtain ⟨R1, u2⟩ := arr_snoc u1.good md.good hdis
      have u3 := (UpdX.trans u1 u2).absorb md.fresh
      have hd2 : ∀ x ∈ F2, x ∉ R1 := by
        intro x hx hR
        rcases u3.sub x hR with h | h | h
        · exact hd x (by simp [hx]) h
        · cases h
        · exact hl x (by simp [hx]) h
      have hl2 := fun x (hx : x ∈ F2) => hl x (List.mem_append_right F1 hx)
      have ih := cloneL_spec hc hn hrec r kvs qs _ F2 R1 (acc ++ [cloneVal v]) (by simpa using hx')
        (repL_frame_keep g.inv u3.frame h2 hl2 (fun x hx => hd x (by simp [hx]))) hn2
        (fun x hx => u3.frame.not_avail (hl2 x hx)) hd2
        (fun x hx => by
          rw [u3.frame.mem x (repL_ge h2 x hx) (hd x (by simp [hx])) (hl2 x hx)]; exact hpl x (by simp [hx]))
        u2.good
      generalize cloneL rec r _ qs = res2 at ih
      match res2 with
      | .err e => exact ih.elim
      | .panic => simp only [LoopOk] at ih; simp [LoopOk, noNilL, ih]
      | .loop => simp only [LoopOk] at ih; simp only [LoopOk, heightL]; omega
      | .ok h2 =>
        obtain ⟨hnn2, R2, u4⟩ := ih
        refine ⟨by simp [noNilL, hnn, hnn2], R2, ?_⟩
        have := UpdX.trans u3 u4
        simpa [cloneValL] using this

/-- From an allocation on. -/
theorem Made.of {h h1 h2 : Heap} {r : Ptr} {t : VT} {v' : Val} {R' : List Ptr} (A : Allocated h r h1 t) (u : Upd h1 [r] h2 (some r) v' R') : Made h r h2 v' R' where
  good := u.good
  frame := ⟨u.frame.inv, fun q hq => A.avail q (u.frame.avail q hq), fun q h5 _ ha => by
    have hne : q ∉ [r] := by simp; rintro rfl; exact ha A.was
    rw [u.frame.mem q h5 hne (fun h => ha (A.avail q h)), A.mem q ha]⟩
  fresh q hq := by
    rcases u.sub q hq with h | h | h
    · simp at h; subst h; exact A.was
    · cases h
    · exact A.avail q h

theorem clone_nextC (f : Nat) (h : Heap) (a : Option Ptr) (c : Option CId) (r : Ptr) (h' : Heap) (hc : ∀ d, c = some d → d < h.nextC) (I : Inv h)
    (e : clone f h a c = .ok (r, h')) : h.nextC ≤ h'.nextC :=
  (I.clone_st (X := fun _ => True) f c hc (fun _ _ => trivial) e).nextC

theorem clone_spec : ∀ (f : Nat) (h : Heap) (a : Option Ptr) (v : Val) (F : List Ptr) (c : Option CId), (∀ d, c = some d → d < h.nextC) → Inv h →
    Rep h.mem v a F → F.Nodup → (∀ r ∈ F, ¬Avail h r) → Copyable h F → CloneOk v f h (clone f h a c)
  | 0, h, a, v, F, c, hc, I, hr, hnd, hl, hpl => by
    have : 0 < height v := by cases v <;> simp [height]
    simpa [clone, CloneOk] using this
  | f + 1, h, none, v, F, c, hc, I, hr, hnd, hl, hpl => by
    cases v with
    | nil => rfl
    | obj _ _ => obtain ⟨p, F', e, -⟩ := hr; cases e
    | arr _ => obtain ⟨p, F', e, -⟩ := hr; cases e
    | _ => obtain ⟨p, e, -⟩ := hr; cases e
  | f + 1, h, some p, v, F, c, hc, I, hr, hnd, hl, hpl => by
    have hd := rep_dt hr
    have hnil := rep_ne_nil hr
    unfold clone
    by_cases h11 : (h.mem p).dt.ord ≥ 11
    · rw [if_pos h11]
      have h5 : p < 5 := by
        rcases Nat.lt_or_ge p 5 with h | h
        · exact h
        · have := hpl p (rep_mem hr h); omega
      rw [hd] at h11
      have hv : cloneVal v = v ∧ noNil v = true := by
        cases v <;> simp [Val.vt, VT.ord] at h11 <;> simp_all [cloneVal, noNil]
      refine ⟨hv.2, [], ?_⟩
      rw [hv.1]
      have hF : F = [] := by
        have hlf : Val.isLeaf v = true := by cases v <;> simp [Val.vt, VT.ord] at h11 <;> simp_all [Val.isLeaf]
        obtain ⟨p', e, hf, -⟩ := (rep_leaf hlf _ _).1 hr
        cases e
        rw [hf]; simp [foot, h5]
      subst hF
      exact ⟨⟨I, hr, by simp, by simp⟩, Frame.refl I [], by simp⟩
    · rw [if_neg h11]
      have A := getValue_spec I c (h.mem p).dt hc
      generalize getValue h c (h.mem p).dt = res at A
      obtain ⟨r, h1⟩ := res
      simp only at A ⊢
      have gr := A.good
      have I1 := A.inv
      have hdp : (h1.mem p).dt = (h.mem p).dt := by
        rcases Nat.lt_or_ge p 5 with h5 | h5
        · exact I.dt_const A.inv h5
        · rw [A.mem p (hl p (rep_mem hr h5))]
      have hmp : 5 ≤ p → h1.mem p = h.mem p := fun h5 => A.mem p (hl p (rep_mem hr h5))
      have hfull : ¬ p < 5 ∨ (h.mem p).dt = .null := by
        rcases Nat.lt_or_ge p 5 with h5 | h5
        · right
          have hc := I.const p h5
          have : p = 0 ∨ p = 1 ∨ p = 2 ∨ p = 3 ∨ p = 4 := by omega
          rw [hc] at h11 ⊢
          rcases this with rfl | rfl | rfl | rfl | rfl <;> simp [constVT, nullP, trueP, falseP, nanP, VT.ord] at h11 ⊢
        · left; omega
      have leaf : ∀ {w : Val} (n : Node), n.owner = (h1.mem r).owner → leafOf n = some w → Made h r (h1.set r n) w [r] := by
        intro w n ho hw
        exact Made.of A (write_leaf gr rfl A.ge ho hw)
      rw [hdp]
      cases v with
      | nil => exact absurd rfl hnil
      | obj ku kvs =>
        obtain ⟨p', F0, e, h5, rfl, hdt, hku, hm⟩ := hr
        cases e
        simp only [hdt]
        have hr1 : RepM h1.mem kvs (h1.mem p).kvs F0 := by
          rw [hmp h5]
          exact repM_frame_keep I (A.toGrows.frame []) hm (fun q hq => hl q (by simp [hq])) (by simp)
        rw [hdt] at A gr
        have hav : ¬Avail h r → False := fun h => h A.was
        have hrp : r ≠ p := by rintro rfl; exact hl r (by simp) A.was
        have u0 : Upd h1 [r] (h1.upd r (fun m => { m with ku := (h1.mem p).ku })) (some r) (.obj ku []) [r] := by
          have e : (h1.mem p).ku = ku := by rw [hmp h5, hku]
          have u := (obj_write (X := []) (F' := []) gr (n := { h1.mem r with ku := (h1.mem p).ku }) A.blank.dt rfl (kvs' := [])
            (by simp [RepM, A.blank.kvs]) (by simp) (by simp) (by simp)).absorb (by simp)
          rw [← e]
          exact u
        have hdr : ∀ q ∈ F0, q ∉ [r] := by
          intro q hq hr; simp at hr; subst hr; exact hl q (by simp [hq]) A.was
        have hl1 : ∀ q ∈ F0, ¬Avail h1 q := fun q hq h => hl q (by simp [hq]) (A.avail q h)
        have sp := cloneM_spec (f := f) (rec := fun h q => clone f h q c) (c := c) (n0 := h1.nextC) (fun d hd => Nat.lt_of_lt_of_le (hc d hd) A.nextC)
          (fun h q r h' hn I e => clone_nextC f h q c r h' (fun d hd => Nat.lt_of_lt_of_le (Nat.lt_of_lt_of_le (hc d hd) A.nextC) hn) I e)
          (fun h q v F hn I hr hnd hl hpl => clone_spec f h q v F c (fun d hd => Nat.lt_of_lt_of_le (Nat.lt_of_lt_of_le (hc d hd) A.nextC) hn) I hr hnd hl hpl) r
          kvs (h1.mem p).kvs _ F0 [r] ku [] (by simp) (repM_frame_keep I1 u0.frame hr1 hl1 hdr)
          (List.nodup_cons.1 hnd).2 (fun q hq => u0.frame.not_avail (hl1 q hq)) hdr
          (fun q hq => by
            rw [u0.frame.mem q (repM_ge hm q hq) (hdr q hq) (hl1 q hq), A.mem q (hl q (by simp [hq]))]
            exact hpl q (by simp [hq]))
          u0.good
        generalize cloneM _ r _ _ = res2 at sp
        match res2 with
        | .err e => exact sp.elim
        | .panic => exact sp
        | .loop => simp only [LoopOk] at sp; simp only [CloneOk, Res.bind_loop, height]; omega
        | .ok h2 =>
          obtain ⟨hnn, R', u⟩ := sp
          refine ⟨hnn, R', ?_⟩
          simpa [cloneVal] using Made.of A (UpdX.trans u0 u)
      | arr xs =>
        obtain ⟨p', F0, e, h5, rfl, hdt, hm⟩ := hr
        cases e
        simp only [hdt]
        have hr1 : RepL h1.mem xs (h1.mem p).arr F0 := by
          rw [hmp h5]
          exact repL_frame_keep I (A.toGrows.frame []) hm (fun q hq => hl q (by simp [hq])) (by simp)
        rw [hdt] at A gr
        have hdr : ∀ q ∈ F0, q ∉ [r] := by
          intro q hq hr; simp at hr; subst hr; exact hl q (by simp [hq]) A.was
        have hl1 : ∀ q ∈ F0, ¬Avail h1 q := fun q hq h => hl q (by simp [hq]) (A.avail q h)
        have sp := cloneL_spec (f := f) (rec := fun h q => clone f h q c) (c := c) (n0 := h1.nextC) (fun d hd => Nat.lt_of_lt_of_le (hc d hd) A.nextC)
          (fun h q r h' hn I e => clone_nextC f h q c r h' (fun d hd => Nat.lt_of_lt_of_le (Nat.lt_of_lt_of_le (hc d hd) A.nextC) hn) I e)
          (fun h q v F hn I hr hnd hl hpl => clone_spec f h q v F c (fun d hd => Nat.lt_of_lt_of_le (Nat.lt_of_lt_of_le (hc d hd) A.nextC) hn) I hr hnd hl hpl) r
          xs (h1.mem p).arr _ F0 [r] [] (by simp) hr1
          (List.nodup_cons.1 hnd).2 hl1 hdr
          (fun q hq => by
            rw [A.mem q (hl q (by simp [hq]))]
            exact hpl q (by simp [hq]))
          gr
        generalize cloneL _ r _ _ = res2 at sp
        match res2 with
        | .err e => exact sp.elim
        | .panic => exact sp
        | .loop => simp only [LoopOk] at sp; simp only [CloneOk, Res.bind_loop, height]; omega
        | .ok h2 =>
          obtain ⟨hnn, R', u⟩ := sp
          refine ⟨hnn, R', ?_⟩
          simpa [cloneVal] using Made.of A u
      | null =>
        simp only [Val.vt] at hd
        rw [hd] at A gr
        simp only [hd]
        exact ⟨rfl, [r], Made.of A gr.upd_refl⟩
      | bin e b =>
        simp only [Val.vt] at hd
        rw [hd] at A gr
        simp only [hd]
        exact ⟨rfl, [r], Made.of A gr.upd_refl⟩
      | exbin e b =>
        simp only [Val.vt] at hd
        rw [hd] at A gr
        simp only [hd]
        exact ⟨rfl, [r], Made.of A gr.upd_refl⟩
      | str s =>
        simp only [Val.vt] at hd
        have h5 : 5 ≤ p := by
          rcases hfull with h | h
          · omega
          · rw [hd] at h; cases h
        obtain ⟨p', e, -, hlf⟩ := hr
        cases e
        rw [hd] at A
        have hb := A.blank
        rw [view_ge h5] at hlf
        simp only [hd]
        refine ⟨rfl, [r], leaf _ rfl ?_⟩
        simp only [leafOf, hd, Option.some.injEq, Val.str.injEq] at hlf
        simp [leafOf, hb.dt, hb.ext, hmp h5, cloneVal, hlf]
      | raw s =>
        simp only [Val.vt] at hd
        have h5 : 5 ≤ p := by
          rcases hfull with h | h
          · omega
          · rw [hd] at h; cases h
        obtain ⟨p', e, -, hlf⟩ := hr
        cases e
        rw [hd] at A
        have hb := A.blank
        rw [view_ge h5] at hlf
        simp only [hd]
        refine ⟨rfl, [r], leaf _ rfl ?_⟩
        simp only [leafOf, hd, Option.some.injEq, Val.raw.injEq] at hlf
        simp [leafOf, hb.dt, hb.ext, hmp h5, cloneVal, hlf]
      | int e x =>
        simp only [Val.vt] at hd
        have h5 : 5 ≤ p := by
          rcases hfull with h | h
          · omega
          · rw [hd] at h; cases h
        obtain ⟨p', e, -, hlf⟩ := hr
        cases e
        rw [hd] at A
        have hb := A.blank
        rw [view_ge h5] at hlf
        simp only [hd]
        refine ⟨rfl, [r], leaf _ rfl ?_⟩
        simp only [leafOf, hd, Option.some.injEq, Val.int.injEq] at hlf
        simp [leafOf, hb.dt, hb.ext, hmp h5, cloneVal, hlf]
      | float x =>
        simp only [Val.vt] at hd
        have h5 : 5 ≤ p := by
          rcases hfull with h | h
          · omega
          · rw [hd] at h; cases h
        obtain ⟨p', e, -, hlf⟩ := hr
        cases e
        rw [hd] at A
        have hb := A.blank
        rw [view_ge h5] at hlf
        simp only [hd]
        refine ⟨rfl, [r], leaf _ rfl ?_⟩
        simp only [leafOf, hd, Option.some.injEq, Val.float.injEq] at hlf
        simp [leafOf, hb.dt, hb.ext, hmp h5, cloneVal, hlf]
      | double x =>
        simp only [Val.vt] at hd
        have h5 : 5 ≤ p := by
          rcases hfull with h | h
          · omega
          · rw [hd] at h; cases h
        obtain ⟨p', e, -, hlf⟩ := hr
        cases e
        rw [hd] at A
        have hb := A.blank
        rw [view_ge h5] at hlf
        simp only [hd]
        refine ⟨rfl, [r], leaf _ rfl ?_⟩
        simp only [leafOf, hd, Option.some.injEq, Val.double.injEq] at hlf
        simp [leafOf, hb.dt, hb.ext, hmp h5, cloneVal, hlf]
      | dateTime x =>
        simp only [Val.vt] at hd
        have h5 : 5 ≤ p := by
          rcases hfull with h | h
          · omega
          · rw [hd] at h; cases h
        obtain ⟨p', e, -, hlf⟩ := hr
        cases e
        rw [hd] at A
        have hb := A.blank
        rw [view_ge h5] at hlf
        simp only [hd]
        refine ⟨rfl, [r], leaf _ rfl ?_⟩
        simp only [leafOf, hd, Option.some.injEq, Val.dateTime.injEq] at hlf
        simp [leafOf, hb.dt, hb.ext, hmp h5, cloneVal, hlf]
      | tru => simp [hd, Val.vt, VT.ord] at h11
      | fls => simp [hd, Val.vt, VT.ord] at h11
      | nan => simp [hd, Val.vt, VT.ord] at h11
      | inf => simp [hd, Val.vt, VT.ord] at h11

/-- The clone of what is in the tree. -/
theorem Good.clone {h : Heap} {a : Option Ptr} {v : Val} {F : List Ptr} (g : Good h a v F) (f : Nat) (c : Option CId) (hc : ∀ d, c = some d → d < h.nextC)
    (hF : Copyable h F) : CloneOk v f h (clone f h a c) := clone_spec f h a v F c hc g.inv g.rep g.nodup g.live hF

/-! ## AddFrom and CopyFrom -/

/-- The loop over the members, when the target `p` is not part of the source `s`. -/
theorem addM_loop {f : Nat} {rec : Heap → Option Ptr → Res (Ptr × Heap)} {n0 : Nat}
    (hn : ∀ h q r h', n0 ≤ h.nextC → Inv h → rec h q = .ok (r, h') → h.nextC ≤ h'.nextC)
    (hrec : ∀ h q v F, n0 ≤ h.nextC → Inv h → Rep h.mem v q F → F.Nodup → (∀ r ∈ F, ¬Avail h r) → Copyable h F → CloneOk v f h (rec h q)) (p s : Ptr) (h5 : 5 ≤ s) :
    ∀ (kvs : List (Bytes × Val)) (ps : List (Bytes × Option Ptr)) (n i : Nat) (h : Heap) (G R : List Ptr) (ku : Bool) (acc : List (Bytes × Val)), n0 ≤ h.nextC →
      (h.mem s).kvs.drop i = ps → s ∉ R → ¬Avail h s → ps.length < n →
      RepM h.mem kvs ps G → G.Nodup → (∀ q ∈ G, ¬Avail h q) → (∀ q ∈ G, q ∉ R) → Copyable h G → Good h (some p) (.obj ku acc) R →
      LoopOk (noNilM kvs) (heightM kvs) f h p R (.obj ku (acc ++ cloneVals kvs)) (addM rec p s n i h)
  | [], ps, n, i, h, G, R, ku, acc, hx, hi, hsR, hsA, hlen, hr, hnd, hl, hd, hpl, g => by
    obtain ⟨rfl, rfl⟩ := hr
    obtain ⟨n, rfl⟩ : ∃ m, n = m + 1 := ⟨n - 1, by simp at hlen; omega⟩
    have : (h.mem s).kvs[i]? = none := by
      rw [List.drop_eq_nil_iff] at hi
      simpa using hi
    rw [addM, this]
    exact ⟨rfl, R, by simpa [cloneVals] using g.upd_refl⟩
  | (k, v) :: kvs, ps, n, i, h, G, R, ku, acc, hx, hi, hsR, hsA, hlen, hr, hnd, hl, hd, hpl, g => by
    obtain ⟨q, qs, F1, F2, rfl, rfl, h1, h2⟩ := hr
    obtain ⟨n, rfl⟩ : ∃ m, n = m + 1 := ⟨n - 1, by simp at hlen; omega⟩
    obtain ⟨hn1, hn2, hn12⟩ := List.nodup_append.1 hnd
    have hi0 : (h.mem s).kvs[i]? = some (k, q) := by
      have : ((h.mem s).kvs.drop i)[0]? = some (k, q) := by rw [hi]; rfl
      simpa using this
    have hi1 : (h.mem s).kvs.drop (i + 1) = qs := by
      rw [← List.drop_drop, hi]; rfl
    have hl1 := fun x (hx : x ∈ F1) => hl x (List.mem_append_left F2 hx)
    have hl2 := fun x (hx : x ∈ F2) => hl x (List.mem_append_right F1 hx)
    have hd1 := fun x (hx : x ∈ F1) => hd x (List.mem_append_left F2 hx)
    rw [addM, hi0]
    dsimp only
    -- the slot
    obtain ⟨F0, rfl, h5p, hdt, hk, hm, hp0, hnp, hav⟩ := g.obj_inv
    obtain ⟨Rs, us⟩ := obj_snoc g (b := none) (w := .nil) (G := []) ⟨g.inv, ⟨rfl, rfl⟩, by simp, by simp⟩ (by simp) k
    have us := us.absorb (by simp)
    have hms : (h.upd p (fun m => { m with kvs := m.kvs ++ [(k, none)] })).mem p = { h.mem p with kvs := (h.mem p).kvs ++ [(k, none)] } := upd_mem_same ..
    have hnx0 : (h.upd p (fun m => { m with kvs := m.kvs ++ [(k, none)] })).nextC = h.nextC := rfl
    generalize h.upd p (fun m => { m with kvs := m.kvs ++ [(k, none)] }) = hs at us hms hnx0 ⊢
    have ok := hrec hs q v F1 (by rw [hnx0]; exact hx) us.good.inv
      (rep_frame h1 ⟨fun q hq => us.frame.mem q (rep_ge h1 q hq) (hd1 q hq) (hl1 q hq), fun _ hp => g.inv.dt_const us.frame.inv hp⟩) hn1
      (fun x hx => us.frame.not_avail (hl1 x hx))
      (fun x hx => by rw [us.frame.mem x (rep_ge h1 x hx) (hd1 x hx) (hl1 x hx)]; exact hpl x (by simp [hx]))
    have hnx := hn hs q
    generalize rec hs q = res at ok hnx
    match res with
    | .err e => exact ok.elim
    | .panic => simp only [CloneOk] at ok; simp [Res.bind_panic, LoopOk, noNilM, ok]
    | .loop => simp only [CloneOk] at ok; simp only [Res.bind_loop, LoopOk, heightM]; omega
    | .ok (q', h') =>
      obtain ⟨hnn, F', md⟩ := ok
      simp only [Res.bind_ok]
      have hx' : n0 ≤ h'.nextC := Nat.le_trans (by rw [hnx0]; exact hx) (hnx q' h' (by rw [hnx0]; exact hx) us.good.inv rfl)
      have u1 := us.good.upd_frame md.frame
      have hdis : ∀ x ∈ F', x ∉ Rs := fun x hx hR => us.good.live x hR (md.fresh x hx)
      have hmp' : h'.mem p = { h.mem p with kvs := (h.mem p).kvs ++ [(k, none)] } := by
        rw [md.frame.mem p h5p (by simp) (us.frame.not_avail hav), hms]
      obtain ⟨R1, u2⟩ : ∃ R1, UpdX F' h' Rs (h'.upd p (fun m => { m with kvs := m.kvs.modify (h.mem p).kvs.length (fun x => (x.1, some q')) }))
          (some p) (.obj ku (acc ++ [(k, cloneVal v)])) R1 := by
        obtain ⟨F3, e3, -, hdt', hk', hm', hp3, hn3, hav'⟩ := u1.good.obj_inv
        subst e3
        obtain ⟨hkeys, hl'⟩ := repM_iff.1 hm'
        rw [hmp'] at hkeys hl'
        refine ⟨p :: (F3 ++ F'), ?_⟩
        have hmod : ((h.mem p).kvs ++ [(k, none)]).modify (h.mem p).kvs.length (fun x => (x.1, some q')) = (h.mem p).kvs ++ [(k, some q')] := by
          rw [List.modify_eq_take_drop]; simp
        subst hk'
        refine obj_write u1.good (n := { h'.mem p with kvs := (h'.mem p).kvs.modify (h.mem p).kvs.length (fun x => (x.1, some q')) }) hdt' rfl (repM_iff.2 ⟨?_, ?_⟩) ?_ ?_ ?_
        · simp only [hmp', hmod]
          simp at hkeys ⊢
          exact hkeys
        · simp only [hmp', hmod]
          simp only [List.map_append, List.map_cons, List.map_nil] at hl' ⊢
          obtain ⟨ps1, ps2, F4, F5, e4, rfl, h4, h6⟩ := repL_append.1 hl'
          obtain ⟨b, ps3, F6, F7, rfl, rfl, h7, h8⟩ := h6
          obtain ⟨rfl, rfl⟩ := h8
          obtain ⟨e5, e6⟩ := List.append_inj' e4 rfl
          simp only [List.cons.injEq, and_true] at e6
          subst e6
          obtain ⟨-, rfl⟩ := h7
          simp only [List.append_nil]
          rw [e5]
          exact repL_snoc h4 md.good.rep
        · rw [List.nodup_append]
          exact ⟨hn3, md.good.nodup, fun a ha b hb e => hdis b hb (by simp [← e, ha])⟩
        · intro q hq
          rcases List.mem_append.1 hq with h1 | h1
          · exact Or.inl ⟨by simp [h1], by rintro rfl; exact hp3 h1⟩
          · exact Or.inr h1
        · intro q hq
          exact ⟨by rintro rfl; exact hdis q hq (by simp), md.good.live q hq⟩
      have u3 := UpdX.trans us ((UpdX.trans u1 u2).absorb md.fresh)
      have hd2 : ∀ x ∈ F2, x ∉ R1 := by
        intro x hx hR
        rcases u3.sub x hR with h | h | h
        · exact hd x (by simp [hx]) h
        · cases h
        · exact hl x (by simp [hx]) h
      have hmemS := u3.frame.mem s h5 hsR hsA
      have hsR1 : s ∉ R1 := by
        intro hR
        rcases u3.sub s hR with h | h | h
        · exact hsR h
        · cases h
        · exact hsA h
      have ih := addM_loop hn hrec p s h5 kvs qs n (i + 1) _ F2 R1 ku (acc ++ [(k, cloneVal v)]) (by simpa using hx')
        (by rw [hmemS]; exact hi1) hsR1 (u3.frame.not_avail hsA) (by simp at hlen; omega)
        (repM_frame_keep g.inv u3.frame h2 hl2 (fun x hx => hd x (by simp [hx]))) hn2
        (fun x hx => u3.frame.not_avail (hl2 x hx)) hd2
        (fun x hx => by
          rw [u3.frame.mem x (repM_ge h2 x hx) (hd x (by simp [hx])) (hl2 x hx)]; exact hpl x (by simp [hx]))
        u2.good
      generalize addM rec p s n _ _ = res2 at ih
      match res2 with
      | .err e => exact ih.elim
      | .panic => simp only [LoopOk] at ih; simp [LoopOk, noNilM, ih]
      | .loop => simp only [LoopOk] at ih; simp only [LoopOk, heightM]; omega
      | .ok h2 =>
        obtain ⟨hnn2, R2, u4⟩ := ih
        refine ⟨by simp [noNilM, hnn, hnn2], R2, ?_⟩
        have := UpdX.trans u3 u4
        simpa [cloneVals] using this

/-- The loop over the elements, when the target `p` is not part of the source `s`. -/
theorem addL_loop {f : Nat} {rec : Heap → Option Ptr → Res (Ptr × Heap)} {n0 : Nat}
    (hn : ∀ h q r h', n0 ≤ h.nextC → Inv h → rec h q = .ok (r, h') → h.nextC ≤ h'.nextC)
    (hrec : ∀ h q v F, n0 ≤ h.nextC → Inv h → Rep h.mem v q F → F.Nodup → (∀ r ∈ F, ¬Avail h r) → Copyable h F → CloneOk v f h (rec h q)) (p s : Ptr) (h5 : 5 ≤ s) :
    ∀ (xs : List Val) (ps : List (Option Ptr)) (n i : Nat) (h : Heap) (G R : List Ptr) (acc : List Val), n0 ≤ h.nextC →
      (h.mem s).arr.drop i = ps → s ∉ R → ¬Avail h s → ps.length < n →
      RepL h.mem xs ps G → G.Nodup → (∀ q ∈ G, ¬Avail h q) → (∀ q ∈ G, q ∉ R) → Copyable h G → Good h (some p) (.arr acc) R →
      LoopOk (noNilL xs) (heightL xs) f h p R (.arr (acc ++ cloneValL xs)) (addL rec p s n i h)
  | [], ps, n, i, h, G, R, acc, hx, hi, hsR, hsA, hlen, hr, hnd, hl, hd, hpl, g => by
    obtain ⟨rfl, rfl⟩ := hr
    obtain ⟨n, rfl⟩ : ∃ m, n = m + 1 := ⟨n - 1, by simp at hlen; omega⟩
    have : (h.mem s).arr[i]? = none := by
      rw [List.drop_eq_nil_iff] at hi
      simpa using hi
    rw [addL, this]
    exact ⟨rfl, R, by simpa [cloneValL] using g.upd_refl⟩
  | v :: xs, ps, n, i, h, G, R, acc, hx, hi, hsR, hsA, hlen, hr, hnd, hl, hd, hpl, g => by
    obtain ⟨q, qs, F1, F2, rfl, rfl, h1, h2⟩ := hr
    obtain ⟨n, rfl⟩ : ∃ m, n = m + 1 := ⟨n - 1, by simp at hlen; omega⟩
    obtain ⟨hn1, hn2, hn12⟩ := List.nodup_append.1 hnd
    have hi0 : (h.mem s).arr[i]? = some q := by
      have : ((h.mem s).arr.drop i)[0]? = some q := by rw [hi]; rfl
      simpa using this
    have hi1 : (h.mem s).arr.drop (i + 1) = qs := by
      rw [← List.drop_drop, hi]; rfl
    rw [addL, hi0]
    dsimp only
    have ok := hrec h q v F1 hx g.inv h1 hn1 (fun q hq => hl q (by simp [hq])) (fun q hq => hpl q (by simp [hq]))
    have hnx := hn h q
    generalize rec h q = res at ok hnx
    match res with
    | .err e => exact ok.elim
    | .panic => simp only [CloneOk] at ok; simp [Res.bind_panic, LoopOk, noNilL, ok]
    | .loop => simp only [CloneOk] at ok; simp only [Res.bind_loop, LoopOk, heightL]; omega
    | .ok (q', h') =>
      obtain ⟨hnn, F', md⟩ := ok
      simp only [Res.bind_ok]
      have hx' : n0 ≤ h'.nextC := Nat.le_trans hx (hnx q' h' hx g.inv rfl)
      have u1 := g.upd_frame md.frame
      have hdis : ∀ x ∈ F', x ∉ R := fun x hx hR => g.live x hR (md.fresh x hx)
      obtain ⟨R1, u2⟩ := arr_snoc u1.good md.good hdis
      have u3 := (UpdX.trans u1 u2).absorb md.fresh
      have hd2 : ∀ x ∈ F2, x ∉ R1 := by
        intro x hx hR
        rcases u3.sub x hR with h | h | h
        · exact hd x (by simp [hx]) h
        · cases h
        · exact hl x (by simp [hx]) h
      have hl2 := fun x (hx : x ∈ F2) => hl x (List.mem_append_right F1 hx)
      have hmemS := u3.frame.mem s h5 hsR hsA
      have hsR1 : s ∉ R1 := by
        intro hR
        rcases u3.sub s hR with h | h | h
        · exact hsR h
        · cases h
        · exact hsA h
      have ih := addL_loop hn hrec p s h5 xs qs n (i + 1) _ F2 R1 (acc ++ [cloneVal v]) (by simpa using hx')
        (by rw [hmemS]; exact hi1) hsR1 (u3.frame.not_avail hsA) (by simp at hlen; omega)
        (repL_frame_keep g.inv u3.frame h2 hl2 (fun x hx => hd x (by simp [hx]))) hn2
        (fun x hx => u3.frame.not_avail (hl2 x hx)) hd2
        (fun x hx => by
          rw [u3.frame.mem x (repL_ge h2 x hx) (hd x (by simp [hx])) (hl2 x hx)]; exact hpl x (by simp [hx]))
        u2.good
      generalize addL rec p s n _ _ = res2 at ih
      match res2 with
      | .err e => exact ih.elim
      | .panic => simp only [LoopOk] at ih; simp [LoopOk, noNilL, ih]
      | .loop => simp only [LoopOk] at ih; simp only [LoopOk, heightL]; omega
      | .ok h2 =>
        obtain ⟨hnn2, R2, u4⟩ := ih
        refine ⟨by simp [noNilL, hnn, hnn2], R2, ?_⟩
        have := UpdX.trans u3 u4
        simpa [cloneValL] using this

/-- The members of `s` are cloned behind those of the object `p`. -/
theorem addM_spec {h : Heap} {p s : Ptr} {ku ku0 : Bool} {kvs kvs' : List (Bytes × Val)} {F : List Ptr} (g : Good h (some p) (.obj ku0 kvs) F) (f : Nat) (c : Option CId)
    (hc : ∀ d, c = some d → d < h.nextC) (h5s : 5 ≤ s) (hsF : s ∉ F) (hsA : ¬Avail h s) {G : List Ptr} (hr : RepM h.mem kvs' (h.mem s).kvs G) (hn : G.Nodup) (hl : ∀ q ∈ G, ¬Avail h q)
    (hd : ∀ q ∈ G, q ∉ F) (hG : Copyable h G) :
    LoopOk (noNilM kvs') (heightM kvs') f h p F (.obj ku (kvs ++ cloneVals kvs'))
      (addM (fun h q => clone f h q c) p s ((h.mem s).kvs.length + f + 1) 0 (h.upd p (fun m => { m with ku := ku }))) := by
  obtain ⟨F0, rfl, h5, hdt, hk, hm, hp0, hn0, hav⟩ := g.obj_inv
  have u0 : Upd h (p :: F0) (h.upd p (fun m => { m with ku := ku })) (some p) (.obj ku kvs) (p :: F0) :=
    (obj_write (X := []) g (n := { h.mem p with ku := ku }) hdt rfl hm hn0
      (fun q hq => Or.inl ⟨List.mem_cons_of_mem _ hq, fun e => hp0 (e ▸ hq)⟩) (by simp)).absorb (by simp)
  have sp := addM_loop (f := f) (rec := fun h q => clone f h q c) (n0 := h.nextC)
    (fun h q r h' hn I e => clone_nextC f h q c r h' (fun d hd => Nat.lt_of_lt_of_le (hc d hd) hn) I e)
    (fun h q v F hn I hr hnd hl hpl => clone_spec f h q v F c (fun d hd => Nat.lt_of_lt_of_le (hc d hd) hn) I hr hnd hl hpl) p s h5s
    kvs' (h.mem s).kvs ((h.mem s).kvs.length + f + 1) 0 _ G (p :: F0) ku kvs (by simp)
    (by rw [u0.frame.mem s h5s hsF hsA]; rfl) hsF (u0.frame.not_avail hsA) (by omega)
    (repM_frame_keep g.inv u0.frame hr hl hd) hn (fun q hq => u0.frame.not_avail (hl q hq)) hd
    (fun q hq => by
      rw [u0.frame.mem q (repM_ge hr q hq) (hd q hq) (hl q hq)]
      exact hG q hq)
    u0.good
  generalize addM _ p s _ _ _ = res at sp
  match res with
  | .err e => exact sp.elim
  | .panic => exact sp
  | .loop => exact sp
  | .ok h2 =>
    obtain ⟨hnn, R', u⟩ := sp
    exact ⟨hnn, R', UpdX.trans u0 u⟩

/-- The elements of `s` are cloned behind those of the array `p`. -/
theorem addL_spec {h : Heap} {p s : Ptr} {xs xs' : List Val} {F : List Ptr} (g : Good h (some p) (.arr xs) F) (f : Nat) (c : Option CId)
    (hc : ∀ d, c = some d → d < h.nextC) (h5s : 5 ≤ s) (hsF : s ∉ F) (hsA : ¬Avail h s) {G : List Ptr} (hr : RepL h.mem xs' (h.mem s).arr G) (hn : G.Nodup) (hl : ∀ q ∈ G, ¬Avail h q)
    (hd : ∀ q ∈ G, q ∉ F) (hG : Copyable h G) :
    LoopOk (noNilL xs') (heightL xs') f h p F (.arr (xs ++ cloneValL xs')) (addL (fun h q => clone f h q c) p s ((h.mem s).arr.length + f + 1) 0 h) :=
  addL_loop (f := f) (rec := fun h q => clone f h q c) (n0 := h.nextC)
    (fun h q r h' hn I e => clone_nextC f h q c r h' (fun d hd => Nat.lt_of_lt_of_le (hc d hd) hn) I e)
    (fun h q v F hn I hr hnd hl hpl => clone_spec f h q v F c (fun d hd => Nat.lt_of_lt_of_le (hc d hd) hn) I hr hnd hl hpl) p s h5s
    xs' (h.mem s).arr _ 0 _ G F xs (by simp) rfl hsF hsA (by omega) hr hn hl hd hG g

/-- What is true of the outcome of `AddFrom` and `CopyFrom`. -/
def CopyOk (w v' : Val) (f : Nat) (h : Heap) (p : Ptr) (F : List Ptr) : Res Heap → Prop
  | .ok h' => noNil w = true ∧ ∃ F', Upd h F h' (some p) v' F'
  | .err _ => False
  | .panic => noNil w = false
  | .loop => f + 1 < height w

/-- The tree after `AddFrom`, for values of the same type. -/
def addVal : Val → Val → Option Val
  | .obj _ kvs, .obj ku' kvs' => some (.obj ku' (kvs ++ cloneVals kvs'))
  | .arr xs, .arr xs' => some (.arr (xs ++ cloneValL xs'))
  | _, _ => none

theorem or_lt {h : Heap} (I : Inv h) {c : Option CId} (hc : ∀ d, c = some d → d < h.nextC) (p : Ptr) :
    ∀ d, c.or (h.mem p).owner = some d → d < h.nextC := by
  intro d hd
  cases c with
  | none => exact I.owner p d hd
  | some c => exact hc d (by simpa using hd)

theorem addFrom_spec {h : Heap} {p s : Ptr} {v w v' : Val} {F G : List Ptr} (g : Good h (some p) v F) (gw : Good h (some s) w G) (hd : ∀ q ∈ G, q ∉ F)
    (hG : Copyable h G) (f : Nat) (c : Option CId) (hc : ∀ d, c = some d → d < h.nextC) (hv : addVal v w = some v') :
    CopyOk w v' f h p F (addFrom f h p (some s) c) := by
  unfold addFrom
  cases v <;> cases w <;> simp only [addVal, Option.some.injEq, reduceCtorEq] at hv <;> subst hv
  · obtain ⟨G0, rfl, h5s, hdts, hks, hms, hp0s, hn0s, -⟩ := gw.obj_inv
    obtain ⟨F0, rfl, h5, -⟩ := g.obj_inv
    have hne : s ≠ p := by rintro rfl; exact hd s (by simp) (by simp)
    simp only [hdts, hks]
    have sp := addM_spec (ku := (h.mem s).ku) g f (Option.or c (h.mem p).owner) (or_lt g.inv hc p) h5s (hd s (by simp)) (gw.live s (by simp)) hms hn0s (fun q hq => gw.live q (by simp [hq]))
      (fun q hq => hd q (by simp [hq])) (fun q hq => hG q (by simp [hq]))
    rw [hks] at sp
    generalize addM _ p s _ _ _ = res at sp
    match res with
    | .err e => exact sp.elim
    | .panic => exact sp
    | .loop => simp only [LoopOk] at sp; simp only [CopyOk, height]; omega
    | .ok h2 => exact sp
  · obtain ⟨G0, rfl, h5s, hdts, hms, hp0s, hn0s, -⟩ := gw.arr_inv
    obtain ⟨F0, rfl, h5, -⟩ := g.arr_inv
    have hne : s ≠ p := by rintro rfl; exact hd s (by simp) (by simp)
    simp only [hdts]
    have sp := addL_spec g f (h.mem p).owner (fun d hd => g.inv.owner p d hd) h5s (hd s (by simp)) (gw.live s (by simp)) hms hn0s (fun q hq => gw.live q (by simp [hq]))
      (fun q hq => hd q (by simp [hq])) (fun q hq => hG q (by simp [hq]))
    generalize addL _ p s _ _ _ = res at sp
    match res with
    | .err e => exact sp.elim
    | .panic => exact sp
    | .loop => simp only [LoopOk] at sp; simp only [CopyOk, height]; omega
    | .ok h2 => exact sp

/-- A value of a type that has no constant is not a constant. -/
theorem leaf_ge {h : Heap} (I : Inv h) {p : Ptr} {t : VT} (hd : (h.mem p).dt = t) (h1 : t ≠ .null) (h2 : t ≠ .true) (h3 : t ≠ .false) (h4 : t ≠ .nan) (h6 : t ≠ .inf) : 5 ≤ p := by
  rcases Nat.lt_or_ge p 5 with h5 | h5
  · have hc := I.const p h5
    rw [hd] at hc
    rcases constVT_cases h5 with h | h | h | h | h <;> rw [h] at hc <;> contradiction
  · exact h5

theorem copyFrom_spec {h : Heap} {p s : Ptr} {v w : Val} {F G : List Ptr} (g : Good h (some p) v F) (h5 : 5 ≤ p) (gw : Good h (some s) w G) (hd : ∀ q ∈ G, q ∉ F)
    (hG : Copyable h G) (f : Nat) (c : Option CId) (hc : ∀ d, c = some d → d < h.nextC) :
    CopyOk w (cloneVal w) f h p F (copyFrom f h p (some s) c) := by
  have hpF := rep_mem g.rep h5
  have hne : s ≠ p := by
    rintro rfl
    exact hd s (rep_mem gw.rep h5) hpF
  obtain ⟨t, ht⟩ : ∃ t, (h.mem s).dt = t := ⟨_, rfl⟩
  have ur := reset_upd g h5 t
  have hms : (reset h p t).mem s = h.mem s := by
    unfold reset; split
    · rfl
    · simp [Heap.upd, set_mem_ne _ _ hne]
  have hmp := reset_mem (h := h) h5 t
  have gw1 : Good (reset h p t) (some s) w G := gw.frame ur.frame hd
  have hd1 : ∀ q ∈ G, q ∉ [p] := fun q hq hp => by simp at hp; subst hp; exact hd q hq hpF
  have hG1 : Copyable (reset h p t) G := fun q hq => by
    rw [ur.frame.mem q (rep_ge gw.rep q hq) (hd q hq) (gw.live q hq)]; exact hG q hq
  have hn1 : (reset h p t).nextC = h.nextC := reset_nextC h p _
  have hdt := rep_dt gw.rep
  rw [ht] at hdt
  have hnil := rep_ne_nil gw.rep
  unfold copyFrom
  dsimp only
  rw [ht, hms, ht]
  have gr := ur.good
  have leaf : ∀ {h2 : Heap} {w' : Val}, (∃ F', Upd (reset h p t) [p] h2 (some p) w' F') → ∃ F', Upd h F h2 (some p) w' F' := by
    rintro h2 w' ⟨F', u⟩
    exact ⟨F', UpdX.trans ur u⟩
  cases w with
  | nil => exact absurd rfl hnil
  | obj ku kvs =>
    simp only [Val.vt] at hdt
    subst hdt
    obtain ⟨G0, rfl, h5s, hdts, hks, hmm, hp0s, hn0s, -⟩ := gw1.obj_inv
    simp only [blankVal] at gr
    rw [hms] at hks hmm
    have sp := addM_spec (ku := (h.mem s).ku) gr f (c.or ((reset h p .object).mem p).owner) (or_lt gr.inv (by rw [hn1]; exact hc) p) h5s (hd1 s (by simp)) (gw1.live s (by simp)) (by rw [hms]; exact hmm) hn0s (fun q hq => gw1.live q (by simp [hq]))
      (fun q hq => hd1 q (by simp [hq])) (fun q hq => hG1 q (by simp [hq]))
    rw [hms, hks] at sp
    simp only [hks]
    generalize addM _ p s _ _ _ = res at sp
    match res with
    | .err e => exact sp.elim
    | .panic => exact sp
    | .loop => simp only [LoopOk] at sp; simp only [CopyOk, height]; omega
    | .ok h2 => exact ⟨sp.1, leaf (by simpa [cloneVal] using sp.2)⟩
  | arr xs =>
    simp only [Val.vt] at hdt
    subst hdt
    obtain ⟨G0, rfl, h5s, hdts, hmm, hp0s, hn0s, -⟩ := gw1.arr_inv
    simp only [blankVal] at gr
    rw [hms] at hmm
    have sp := addL_spec gr f ((reset h p .array).mem p).owner (fun d hd => gr.inv.owner p d hd) h5s (hd1 s (by simp)) (gw1.live s (by simp)) (by rw [hms]; exact hmm) hn0s (fun q hq => gw1.live q (by simp [hq]))
      (fun q hq => hd1 q (by simp [hq])) (fun q hq => hG1 q (by simp [hq]))
    rw [hms] at sp
    generalize addL _ p s _ _ _ = res at sp
    match res with
    | .err e => exact sp.elim
    | .panic => exact sp
    | .loop => simp only [LoopOk] at sp; simp only [CopyOk, height]; omega
    | .ok h2 => exact ⟨sp.1, leaf (by simpa [cloneVal] using sp.2)⟩
  | str x =>
    simp only [Val.vt] at hdt
    subst hdt
    have h5s : 5 ≤ s := leaf_ge gw.inv ht (by simp) (by simp) (by simp) (by simp) (by simp)
    obtain ⟨s', e, -, hlf⟩ := gw.rep
    cases e
    rw [view_ge h5s] at hlf
    simp only [leafOf, ht, Option.some.injEq, Val.str.injEq] at hlf
    refine ⟨rfl, leaf ⟨[p], write_leaf gr rfl h5 rfl ?_⟩⟩
    simp [leafOf, hmp, Node.reset, cloneVal, hlf]
  | raw x =>
    simp only [Val.vt] at hdt
    subst hdt
    have h5s : 5 ≤ s := leaf_ge gw.inv ht (by simp) (by simp) (by simp) (by simp) (by simp)
    obtain ⟨s', e, -, hlf⟩ := gw.rep
    cases e
    rw [view_ge h5s] at hlf
    simp only [leafOf, ht, Option.some.injEq, Val.raw.injEq] at hlf
    refine ⟨rfl, leaf ⟨[p], write_leaf gr rfl h5 rfl ?_⟩⟩
    simp [leafOf, hmp, Node.reset, cloneVal, hlf]
  | int e x =>
    simp only [Val.vt] at hdt
    subst hdt
    have h5s : 5 ≤ s := leaf_ge gw.inv ht (by simp) (by simp) (by simp) (by simp) (by simp)
    obtain ⟨s', e, -, hlf⟩ := gw.rep
    cases e
    rw [view_ge h5s] at hlf
    simp only [leafOf, ht, Option.some.injEq, Val.int.injEq] at hlf
    rw [if_pos (by rw [hmp]; simp [Node.reset, VT.ord])]
    refine ⟨rfl, leaf ⟨[p], write_leaf gr rfl h5 rfl ?_⟩⟩
    simp [leafOf, hmp, Node.reset, cloneVal, hlf]
  | float x =>
    simp only [Val.vt] at hdt
    subst hdt
    have h5s : 5 ≤ s := leaf_ge gw.inv ht (by simp) (by simp) (by simp) (by simp) (by simp)
    obtain ⟨s', e, -, hlf⟩ := gw.rep
    cases e
    rw [view_ge h5s] at hlf
    simp only [leafOf, ht, Option.some.injEq, Val.float.injEq] at hlf
    rw [if_pos (by rw [hmp]; simp [Node.reset, VT.ord])]
    refine ⟨rfl, leaf ⟨[p], write_leaf gr rfl h5 rfl ?_⟩⟩
    simp [leafOf, hmp, Node.reset, cloneVal, hlf]
  | double x =>
    simp only [Val.vt] at hdt
    subst hdt
    have h5s : 5 ≤ s := leaf_ge gw.inv ht (by simp) (by simp) (by simp) (by simp) (by simp)
    obtain ⟨s', e, -, hlf⟩ := gw.rep
    cases e
    rw [view_ge h5s] at hlf
    simp only [leafOf, ht, Option.some.injEq, Val.double.injEq] at hlf
    rw [if_pos (by rw [hmp]; simp [Node.reset, VT.ord])]
    refine ⟨rfl, leaf ⟨[p], write_leaf gr rfl h5 rfl ?_⟩⟩
    simp [leafOf, hmp, Node.reset, cloneVal, hlf]
  | dateTime x =>
    simp only [Val.vt] at hdt
    subst hdt
    have h5s : 5 ≤ s := leaf_ge gw.inv ht (by simp) (by simp) (by simp) (by simp) (by simp)
    obtain ⟨s', e, -, hlf⟩ := gw.rep
    cases e
    rw [view_ge h5s] at hlf
    simp only [leafOf, ht, Option.some.injEq, Val.dateTime.injEq] at hlf
    rw [if_pos (by rw [hmp]; simp [Node.reset, VT.ord])]
    refine ⟨rfl, leaf ⟨[p], write_leaf gr rfl h5 rfl ?_⟩⟩
    simp [leafOf, hmp, Node.reset, cloneVal, hlf]
  | bin e b =>
    simp only [Val.vt] at hdt
    subst hdt
    rw [if_neg (by rw [hmp]; simp [Node.reset, VT.ord])]
    exact ⟨rfl, leaf ⟨[p], gr.upd_refl⟩⟩
  | exbin e b =>
    simp only [Val.vt] at hdt
    subst hdt
    rw [if_neg (by rw [hmp]; simp [Node.reset, VT.ord])]
    exact ⟨rfl, leaf ⟨[p], gr.upd_refl⟩⟩
  | null  =>
    simp only [Val.vt] at hdt
    subst hdt
    rw [if_neg (by rw [hmp]; simp [Node.reset, VT.ord])]
    exact ⟨rfl, leaf ⟨[p], gr.upd_refl⟩⟩
  | tru  =>
    simp only [Val.vt] at hdt
    subst hdt
    rw [if_neg (by rw [hmp]; simp [Node.reset, VT.ord])]
    exact ⟨rfl, leaf ⟨[p], gr.upd_refl⟩⟩
  | fls  =>
    simp only [Val.vt] at hdt
    subst hdt
    rw [if_neg (by rw [hmp]; simp [Node.reset, VT.ord])]
    exact ⟨rfl, leaf ⟨[p], gr.upd_refl⟩⟩
  | nan  =>
    simp only [Val.vt] at hdt
    subst hdt
    rw [if_neg (by rw [hmp]; simp [Node.reset, VT.ord])]
    exact ⟨rfl, leaf ⟨[p], gr.upd_refl⟩⟩
  | inf  =>
    simp only [Val.vt] at hdt
    subst hdt
    rw [if_neg (by rw [hmp]; simp [Node.reset, VT.ord])]
    exact ⟨rfl, leaf ⟨[p], gr.upd_refl⟩⟩

/-! ## A test for values that `clone` copies completely -/

/-- No node of `p` besides the shared constants has one of the types `clone` does not copy (looking `f` levels deep). -/
def copyable : Nat → (Ptr → Node) → Option Ptr → Bool
  | 0, _, _ => false
  | _ + 1, _, none => true
  | f + 1, m, some p => p < 5 || ((m p).dt.ord < 11 && (Node.kids (m p)).all (copyable f m))

theorem copyable_list {f : Nat} {m : Ptr → Node} (ih : ∀ {v a F}, Rep m v a F → copyable f m a = true → ∀ q ∈ F, (m q).dt.ord < 11) :
    ∀ {xs : List Val} {ps : List (Option Ptr)} {F : List Ptr}, RepL m xs ps F → ps.all (copyable f m) = true → ∀ q ∈ F, (m q).dt.ord < 11
  | [], _, _, h, _, q, hq => by obtain ⟨-, rfl⟩ := h; simp at hq
  | x :: xs, _, _, h, hc, q, hq => by
    obtain ⟨_, _, F1, F2, rfl, rfl, h1, h2⟩ := h
    simp only [List.all_cons, Bool.and_eq_true] at hc
    rcases List.mem_append.1 hq with hq | hq
    · exact ih h1 hc.1 q hq
    · exact copyable_list ih h2 hc.2 q hq

theorem copyable_rep {m : Ptr → Node} : ∀ {f : Nat} {v : Val} {a : Option Ptr} {F : List Ptr}, Rep m v a F → copyable f m a = true → ∀ q ∈ F, (m q).dt.ord < 11
  | 0, _, _, _, _, hc => by cases hc
  | f + 1, v, a, F, hr, hc => by
    intro q hq
    have leaf : ∀ p, a = some p → F = foot p → (m q).dt.ord < 11 := by
      rintro p rfl rfl
      unfold foot at hq
      split at hq
      · cases hq
      · rename_i h5
        simp only [List.mem_singleton] at hq
        subst hq
        simp [copyable, h5] at hc
        exact hc.1
    cases v with
    | nil => obtain ⟨-, rfl⟩ := hr; cases hq
    | obj ku kvs =>
      obtain ⟨p, F0, rfl, h5, rfl, hdt, -, hm⟩ := hr
      have h5' : ¬ p < 5 := by omega
      simp only [copyable, h5', decide_false, Bool.false_or, Bool.and_eq_true, decide_eq_true_eq] at hc
      rcases List.mem_cons.1 hq with rfl | hq
      · exact hc.1
      · rw [kids_obj hdt] at hc
        exact copyable_list (fun h1 h2 => copyable_rep h1 h2) (repM_iff.1 hm).2 hc.2 q hq
    | arr xs =>
      obtain ⟨p, F0, rfl, h5, rfl, hdt, hm⟩ := hr
      have h5' : ¬ p < 5 := by omega
      simp only [copyable, h5', decide_false, Bool.false_or, Bool.and_eq_true, decide_eq_true_eq] at hc
      rcases List.mem_cons.1 hq with rfl | hq
      · exact hc.1
      · rw [kids_arr hdt] at hc
        exact copyable_list (fun h1 h2 => copyable_rep h1 h2) hm hc.2 q hq
    | _ => obtain ⟨p, e, hf, -⟩ := hr; exact leaf p e hf

end Dxs.Heap
