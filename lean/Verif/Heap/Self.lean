import Verif.Heap.Clone

/-!
# AddFrom to the value itself

The loop of dxvalue.go:589-592 appends a member in every round and runs to the last member: it never ends.
-/

namespace Dxs.Heap

/-- The members of `p` are strings and numbers, and `p` is none of them. -/
structure Flat (h : Heap) (p : Ptr) (c : Option CId) : Prop where
  inv : Inv h
  ge : 5 ≤ p
  live : ¬Avail h p
  cache : ∀ d, c = some d → d < h.nextC
  kids : ∀ kv ∈ (h.mem p).kvs, ∃ q, kv.2 = some q ∧ q ≠ p ∧ ¬Avail h q ∧ ((h.mem q).dt = .string ∨ (h.mem q).dt = .int ∨ (h.mem q).dt = .double)

theorem clone_scalar {h : Heap} (I : Inv h) {q : Ptr} (hl : ¬Avail h q) (hd : (h.mem q).dt = .string ∨ (h.mem q).dt = .int ∨ (h.mem q).dt = .double) {c : Option CId}
    (hc : ∀ d, c = some d → d < h.nextC) (f : Nat) :
    ∃ (t : VT) (r : Ptr) (h2 : Heap) (g : Node → Node), (t = .string ∨ t = .int ∨ t = .double) ∧ Allocated h r h2 t ∧ (∀ n, (g n).owner = n.owner ∧ (g n).dt = n.dt) ∧
      clone (f + 1) h (some q) c = .ok (r, h2.upd r g) := by
  have A := getValue_spec I c (h.mem q).dt hc
  generalize hg : getValue h c (h.mem q).dt = gv at A
  obtain ⟨r, h2⟩ := gv
  have e : h2.mem q = h.mem q := A.mem q hl
  rcases hd with hd | hd | hd
  · refine ⟨_, r, h2, fun m => { m with str := (h.mem q).str }, Or.inl rfl, hd ▸ A, fun _ => ⟨rfl, rfl⟩, ?_⟩
    rw [clone, if_neg (by rw [hd]; decide), hg]
    dsimp only
    rw [e, hd]
  · refine ⟨_, r, h2, fun m => { m with cell := (h.mem q).cell }, Or.inr (Or.inl rfl), hd ▸ A, fun _ => ⟨rfl, rfl⟩, ?_⟩
    rw [clone, if_neg (by rw [hd]; decide), hg]
    dsimp only
    rw [e, hd]
  · refine ⟨_, r, h2, fun m => { m with cell := (h.mem q).cell }, Or.inr (Or.inr rfl), hd ▸ A, fun _ => ⟨rfl, rfl⟩, ?_⟩
    rw [clone, if_neg (by rw [hd]; decide), hg]
    dsimp only
    rw [e, hd]

theorem addM_self {p : Ptr} {c : Option CId} (f : Nat) : ∀ (n i : Nat) {h : Heap}, Flat h p c → i < (h.mem p).kvs.length →
    addM (fun h q => clone f h q c) p p n i h = .loop
  | 0, _, _, _, _ => rfl
  | n + 1, i, h, a, hi => by
    obtain ⟨q, hq, hne, hlq, hdq⟩ := a.kids _ (List.getElem_mem hi)
    rw [addM, List.getElem?_eq_getElem hi]
    dsimp only
    rw [hq]
    cases f with
    | zero => rfl
    | succ f =>
      generalize hs : h.upd p (fun m => { m with kvs := m.kvs ++ [((h.mem p).kvs[i].1, none)] }) = h1
      have I1 : Inv h1 := by
        rw [← hs]; exact a.inv.set p _ (fun h => absurd h (by have := a.ge; omega)) (fun d hd => a.inv.owner p d hd)
      have hA : ∀ r, Avail h1 r ↔ Avail h r := by intro r; rw [← hs]; exact Iff.rfl
      have hx : h1.nextC = h.nextC := by rw [← hs]; rfl
      have m1 : ∀ r, r ≠ p → h1.mem r = h.mem r := fun r hr => by rw [← hs, upd_mem_ne _ _ hr]
      have mp : h1.mem p = { h.mem p with kvs := (h.mem p).kvs ++ [((h.mem p).kvs[i].1, none)] } := by rw [← hs, upd_mem_same]
      obtain ⟨t, r, h2, g, ht, A, hg, e⟩ := clone_scalar I1 (q := q) (c := c) (fun h => hlq ((hA q).mp h)) (by rw [m1 q hne]; exact hdq)
        (fun d hd => by rw [hx]; exact a.cache d hd) f
      rw [e, Res.bind_ok]
      dsimp only
      have hrp : r ≠ p := fun e => a.live ((hA p).mp (e ▸ A.was))
      generalize hw : h2.upd r g = h3
      have I3 : Inv h3 := by
        rw [← hw]; exact A.inv.set r _ (fun h => absurd h (by have := A.ge; omega)) (fun d hd => A.inv.owner r d ((hg _).1 ▸ hd))
      have hA3 : ∀ x, Avail h3 x ↔ Avail h2 x := by intro x; rw [← hw]; exact Iff.rfl
      have e3p : h3.mem p = h1.mem p := by rw [← hw, upd_mem_ne _ _ hrp.symm, A.mem p (fun h => a.live ((hA p).mp h))]
      have ekv : ((h3.mem p).kvs.modify (h.mem p).kvs.length (fun x => (x.1, some r))) = (h.mem p).kvs ++ [((h.mem p).kvs[i].1, some r)] := by
        rw [e3p, mp, List.modify_eq_take_drop]; simp
      refine addM_self (f + 1) n (i + 1) ⟨?_, a.ge, ?_, ?_, ?_⟩ ?_
      · exact I3.set p _ (fun h => absurd h (by have := a.ge; omega)) (fun d hd => I3.owner p d hd)
      · intro hav
        exact a.live ((hA p).mp (A.avail p ((hA3 p).mp hav)))
      · intro d hd
        have := a.cache d hd
        have h4 := A.nextC
        rw [hx] at h4
        show d < h3.nextC
        rw [← hw]
        exact Nat.lt_of_lt_of_le this h4
      · intro kv hkv
        rw [upd_mem_same] at hkv
        simp only [ekv, List.mem_append, List.mem_singleton] at hkv
        rcases hkv with hkv | rfl
        · obtain ⟨x, h5, h6, h7, h8⟩ := a.kids kv hkv
          have hxr : x ≠ r := fun e => h7 ((hA x).mp (e ▸ A.was))
          refine ⟨x, h5, h6, fun hav => h7 ((hA x).mp (A.avail x ((hA3 x).mp hav))), ?_⟩
          rw [upd_mem_ne _ _ h6, ← hw, upd_mem_ne _ _ hxr, A.mem x (fun h => h7 ((hA x).mp h)), m1 x h6]; exact h8
        · refine ⟨r, rfl, hrp, fun hav => A.isnt ((hA3 r).mp hav), ?_⟩
          rw [upd_mem_ne _ _ hrp, ← hw, upd_mem_same]
          rw [(hg _).2, A.blank.dt]; exact ht
      · rw [upd_mem_same]
        simp only [ekv, List.length_append, List.length_singleton]
        omega

/-- `AddFrom` of an object of strings and numbers to itself never ends. -/
theorem addFrom_self {h : Heap} {p : Ptr} {c : Option CId} (f : Nat) (a : Flat h p (c.or (h.mem p).owner)) (hd : (h.mem p).dt = .object) (hk : (h.mem p).kvs ≠ []) :
    addFrom f h p (some p) c = .loop := by
  unfold addFrom
  simp only [hd]
  refine addM_self f _ 0 ⟨?_, a.ge, a.live, a.cache, ?_⟩ ?_
  · exact a.inv.set p _ (fun h => absurd h (by have := a.ge; omega)) (fun d hd => a.inv.owner p d hd)
  · intro kv hkv
    rw [upd_mem_same] at hkv
    obtain ⟨x, h5, h6, h7, h8⟩ := a.kids kv hkv
    exact ⟨x, h5, h6, h7, by rw [upd_mem_ne _ _ h6]; exact h8⟩
  · rw [upd_mem_same]
    exact List.length_pos_iff.mpr hk

end Dxs.Heap
