import Verif.Load.Base
import Verif.MsgPack.Model

/-!
# The MessagePack decoder in memory (msgpackparse.go)

`sharebinary` only decides whether strings and binaries alias the input; the input is not changed by the package, so the flag is
invisible here.
-/

namespace Dxs.Heap
open MsgPack

/-- Return a node just made. -/
def ret (x : Ptr × Heap) (b : Bytes) : Out (Option Ptr × Bytes) := .ok (some x.1, b) x.2

/-- The loop of `parseMsgPackArray`, msgpackparse.go:126-133 (and 149-155); `P` is `parseMsgPackValue`. -/
def elemsH (P : Heap → Bytes → Out (Option Ptr × Bytes)) (r : Ptr) : Nat → Heap → Bytes → Out Bytes
  | 0, h, b => .ok b h
  | n + 1, h, b => (P h b).bind fun vb h => elemsH P r n (h.upd r (fun m => { m with arr := m.arr ++ [vb.1] })) vb.2

/-- The loop of `parseMsgPackObject`, msgpackparse.go:85-107 (and 43-62). -/
def membersH (E : Env) (P : Heap → Bytes → Out (Option Ptr × Bytes)) (r : Ptr) : Nat → Heap → Bytes → Out Bytes
  | 0, h, b => .ok b h
  | n + 1, h, b =>
    (Out.lift (readCode b) h).bind fun cb h =>
    (Out.lift (parseStr cb.1 cb.2) h).bind fun kb h =>
    (P h kb.2).bind fun vb h => membersH E P r n (setKeyValue E h r kb.1 vb.1) vb.2

/-- `if c == nil { c = result.ValueCache() }`, msgpackparse.go:82-84, 123-125. -/
def childCache (h : Heap) (c : Option CId) (r : Ptr) : Option CId :=
  match c with
  | none => (h.mem r).owner
  | some d => some d

/-- `parseMsgPackArray`, msgpackparse.go:113-135. -/
def arrayH (P : Option CId → Heap → Bytes → Out (Option Ptr × Bytes)) (code : UInt8) (h : Heap) (b : Bytes) (c : Option CId) : Out (Option Ptr × Bytes) :=
  (Out.lift (parseArrLen code b) h).bind fun nb h =>
  if nb.1 = 0 then ret (getValue h c .array) nb.2
  else
    let r := (getValue h c .array).1
    let h := (getValue h c .array).2
    ((elemsH (P (childCache h c r)) r nb.1 h nb.2).orFree r).bind fun b h => .ok (some r, b) h

/-- `parseMsgPackObject`, msgpackparse.go:67-110. -/
def objectH (E : Env) (P : Option CId → Heap → Bytes → Out (Option Ptr × Bytes)) (code : UInt8) (h : Heap) (b : Bytes) (c : Option CId) : Out (Option Ptr × Bytes) :=
  (Out.lift (parseMapLen code b) h).bind fun nb h =>
  if nb.1 = 0 then ret (getValue h c .object) nb.2
  else
    match nb.2 with
    | [] => .panic
    | k :: _ =>
      if !(isStr k) then .err .mapKey h
      else
        let r := (getValue h c .object).1
        let h := (getValue h c .object).2
        ((membersH E (P (childCache h c r)) r nb.1 h nb.2).orFree r).bind fun b h => .ok (some r, b) h

/-- The binary branch of `parseMsgPackValue`, msgpackparse.go:268-285. -/
def binH (code : UInt8) (h : Heap) (b : Bytes) (c : Option CId) : Out (Option Ptr × Bytes) :=
  (Out.lift (parseLen code b) h).bind fun nb h =>
  if nb.1 ≤ nb.2.length then ret (newBin h c .binary (nb.2.take nb.1)) (nb.2.drop nb.1)
  else .err (.truncated nb.1 nb.2.length) h

/-- The extension branch of `parseMsgPackValue`, msgpackparse.go:286-325. -/
def extH (E : Env) (code : UInt8) (h : Heap) (b : Bytes) (c : Option CId) : Out (Option Ptr × Bytes) :=
  (Out.lift (parseExtLen code b) h).bind fun nb h =>
  if nb.2.length < nb.1 then .err (.truncated nb.1 nb.2.length) h
  else
    (Out.lift (sliceFrom (nb.1 + 1) nb.2) h).bind fun tail h =>
    match nb.2 with
    | [] => .panic
    | ty :: _ =>
      if isTime code ty then (Out.lift (parseTime E code nb.2) h).bind fun x h => ret (newTime h c x) tail
      else ret (newBin h c .exBinary (nb.2.take (nb.1 + 1))) tail

/-- `parseMsgPackValue`, msgpackparse.go:158-328. -/
def parseValueH (E : Env) : Nat → Option CId → Heap → Bytes → Out (Option Ptr × Bytes)
  | 0, _, _, _ => .loop
  | fuel + 1, c, h, b =>
    (Out.lift (readCode b) h).bind fun cb h =>
    let code := cb.1
    let b := cb.2
    if isStr code then (Out.lift (parseStr code b) h).bind fun sb h => ret (newStr h c sb.1) sb.2
    else if isArray code then arrayH (parseValueH E fuel) code h b c
    else if isMap code then objectH E (parseValueH E fuel) code h b c
    else if isFixedNum code then ret (newInt h c (sx8 code.toNat)) b
    else if code == 0xcc then (Out.lift (parseUint8 b) h).bind fun ub h => ret (newInt h c (BitVec.ofNat 64 ub.1)) ub.2
    else if code == 0xd0 then (Out.lift (parseUint8 b) h).bind fun ub h => ret (newInt h c (sx8 ub.1)) ub.2
    else if code == 0xcd then (Out.lift (parseUint16 b) h).bind fun ub h => ret (newInt h c (BitVec.ofNat 64 ub.1)) ub.2
    else if code == 0xd1 then (Out.lift (parseUint16 b) h).bind fun ub h => ret (newInt h c (sx16 ub.1)) ub.2
    else if code == 0xce then (Out.lift (parseUint32 b) h).bind fun ub h => ret (newInt h c (BitVec.ofNat 64 ub.1)) ub.2
    else if code == 0xd2 then (Out.lift (parseUint32 b) h).bind fun ub h => ret (newInt h c (sx32 ub.1)) ub.2
    else if code == 0xd3 || code == 0xcf then (Out.lift (parseUint64 b) h).bind fun ub h => ret (newInt h c (BitVec.ofNat 64 ub.1)) ub.2
    else if code == 0xca then (Out.lift (parseUint32 b) h).bind fun ub h => ret (newFloat h c (BitVec.ofNat 32 ub.1)) ub.2
    else if code == 0xcb then (Out.lift (parseUint64 b) h).bind fun ub h => ret (newDouble h c (BitVec.ofNat 64 ub.1)) ub.2
    else if code == 0xc3 then .ok (some trueP, b) h
    else if code == 0xc2 then .ok (some falseP, b) h
    else if code == 0xc0 then .ok (some nullP, b) h
    else if isBin code then binH code h b c
    else if isExt code then extH E code h b c
    else .ok (none, []) h

/-- `NewValueFromMsgPack`, msgpackparse.go:487-499; `pick` is what the pool gives (see `getCache`). -/
def newValueFromMsgPackH (E : Env) (h : Heap) (b : Bytes) (useCache : Bool) (pick : Option Nat) : Out (Option Ptr) :=
  if useCache then
    (parseValueH E (b.length + 1) (some (getCache h pick).1) (getCache h pick).2 b).bind fun vb h => .ok vb.1 h
  else (parseValueH E (b.length + 1) none h b).bind fun vb h => .ok vb.1 h

/-! ## The loops -/

/-- A loop that changes the node `r` step by step does what the loop on trees does. -/
def LoopSim (c : Option CId) (h : Heap) (r : Ptr) (R : List Ptr) : Res (Val × Bytes) → Out Bytes → Prop
  | .ok (v, b), .ok b' h' => b' = b ∧ ∃ v' R', canon v' = v ∧ Upd h R h' (some r) v' R' ∧ Run c h h'
  | .err e, .err e' h' => e' = e ∧ Inv h' ∧ h.nextC ≤ h'.nextC ∧
      (Own h → (∃ d, c = some d ∧ Ready h d) → ∃ v' R', Upd h R h' (some r) v' R' ∧ Run c h h')
  | .panic, .panic => True
  | .loop, .loop => True
  | _, _ => False

/-- The first part of a loop has been done. -/
theorem LoopSim.after {c : Option CId} {h h1 : Heap} {r : Ptr} {R R1 : List Ptr} {v1 : Val} (u : Upd h R h1 (some r) v1 R1) (s : Run c h h1)
    {x : Res (Val × Bytes)} {y : Out Bytes} (l : LoopSim c h1 r R1 x y) : LoopSim c h r R x y := by
  match x, y, l with
  | .ok _, .ok _ _, ⟨e, v', R', hv, u', s'⟩ => exact ⟨e, v', R', hv, UpdX.trans u u', s.trans s'⟩
  | .err _, .err _ _, ⟨e, I, hn, hf⟩ =>
    refine ⟨e, I, Nat.le_trans s.step.nextC hn, fun O ⟨d, hd, hr⟩ => ?_⟩
    obtain ⟨v', R', u', s'⟩ := hf (s.step.own O) ⟨d, hd, s.ready d hd hr⟩
    exact ⟨v', R', UpdX.trans u u', s.trans s'⟩
  | .panic, .panic, _ => trivial
  | .loop, .loop, _ => trivial

/-- A value is parsed in the course of a loop. -/
theorem LoopSim.value {c : Option CId} {h : Heap} {r : Ptr} {R : List Ptr} {w : Val} (g : Good h (some r) w R)
    {x : Res (Val × Bytes)} {y : Out (Option Ptr × Bytes)} (l : Sim c h x y) {f : Val × Bytes → Res (Val × Bytes)} {F : Option Ptr × Bytes → Heap → Out Bytes}
    (hs : ∀ v b a h' v' G, canon v' = v → MadeO h a h' v' G → Run c h h' → LoopSim c h r R (f (v, b)) (F (a, b) h')) :
    LoopSim c h r R (x >>= f) (y.bind F) := by
  match x, y, l with
  | .ok (v, b), .ok (a, b') h', ⟨e, v', G, hv, m, s⟩ => subst e; exact hs v b' a h' v' G hv m s
  | .err _, .err _ _, ⟨e, ⟨I, hn, hf⟩⟩ =>
    refine ⟨e, I, hn, fun O ⟨d, hd, hr⟩ => ?_⟩
    subst hd
    obtain ⟨f, s⟩ := (hf O).inner hr
    exact ⟨w, R, g.upd_frame f, s⟩
  | .panic, .panic, _ => trivial
  | .loop, .loop, _ => trivial

/-- Bytes are read in the course of a loop. -/
theorem LoopSim.read {α : Type} {c : Option CId} {h : Heap} {r : Ptr} {R : List Ptr} {w : Val} (g : Good h (some r) w R) (x : Res α)
    {f : α → Res (Val × Bytes)} {F : α → Heap → Out Bytes} (hs : ∀ a, x = .ok a → LoopSim c h r R (f a) (F a h)) :
    LoopSim c h r R (x >>= f) ((Out.lift x h).bind F) := by
  cases x with
  | ok a => exact hs a rfl
  | err e => exact ⟨rfl, g.inv, Nat.le_refl _, fun _ _ => ⟨w, R, g.upd_refl, Run.refl g.inv⟩⟩
  | panic => trivial
  | loop => trivial

/-- What is assumed about the parser of the parts. -/
def PartSim (c : Option CId) (n0 : Nat) (p : Bytes → Res (Val × Bytes)) (P : Heap → Bytes → Out (Option Ptr × Bytes)) : Prop :=
  ∀ h b, Inv h → n0 ≤ h.nextC → Sim c h (p b) (P h b)

theorem elemsH_spec {c : Option CId} {n0 : Nat} {p : Bytes → Res (Val × Bytes)} {P : Heap → Bytes → Out (Option Ptr × Bytes)} (hP : PartSim c n0 p P) (r : Ptr) :
    ∀ (n : Nat) (h : Heap) (b : Bytes) (R : List Ptr) (acc : List Val), n0 ≤ h.nextC → Good h (some r) (.arr acc) R →
      LoopSim c h r R (parseElems p n b >>= fun x => .ok (.arr (canonL acc ++ x.1), x.2)) (elemsH P r n h b)
  | 0, h, b, R, acc, hn, g => ⟨rfl, .arr acc, R, by simp [canon], g.upd_refl, Run.refl g.inv⟩
  | n + 1, h, b, R, acc, hn, g => by
    have key : LoopSim c h r R (p b >>= fun vb => parseElems p n vb.2 >>= fun x => .ok (.arr (canonL acc ++ vb.1 :: x.1), x.2)) (elemsH P r (n + 1) h b) := by
      refine LoopSim.value g (hP h b g.inv hn) ?_
      intro v b a h' v' G hv m s
      have u1 := g.upd_frame m.frame
      obtain ⟨R1, u2⟩ := arr_snoc u1.good m.good (fun x hx hR => g.live x hR (m.fresh x hx))
      have u3 := (UpdX.trans u1 u2).absorb m.fresh
      have h5 : 5 ≤ r := g.arr_inv.choose_spec.2.1
      have s3 := s.trans (Run.upd (c := c) s.step.inv r (fun m => { m with arr := m.arr ++ [a] }) (fun h => by omega) rfl)
      refine LoopSim.after u3 s3 ?_
      have := elemsH_spec hP r n _ b R1 (acc ++ [v']) (Nat.le_trans hn s3.step.nextC) u2.good
      simpa [canonL_append, canonL, hv] using this
    have e : (parseElems p (n + 1) b >>= fun x => Res.ok (Val.arr (canonL acc ++ x.1), x.2)) =
        (p b >>= fun vb => parseElems p n vb.2 >>= fun x => .ok (.arr (canonL acc ++ vb.1 :: x.1), x.2)) := by
      rw [parseElems]
      rcases p b with ⟨v, b⟩ | e | _ | _
      · simp only [Res.bind_ok]
        rcases parseElems p n b with ⟨v, b⟩ | e | _ | _ <;> rfl
      all_goals rfl
    rw [e]; exact key

section
variable {h : Heap}

theorem setKeyValue_owner (E : Env) (p : Ptr) (name : Bytes) (v : Option Ptr) (q : Ptr) : ((setKeyValue E h p name v).mem q).owner = (h.mem q).owner := by
  have hu : ∀ (h : Heap) (f : Node → Node), (∀ n, (f n).owner = n.owner) → ((h.upd p f).mem q).owner = (h.mem q).owner := by
    intro h f hf
    by_cases e : q = p
    · subst e; rw [upd_mem_same, hf]
    · rw [upd_mem_ne _ _ e]
  unfold setKeyValue setIndexValue
  split
  · have e := ifReset_owner (h := h) ((h.mem p).dt = .array) p .array q
    generalize (if (h.mem p).dt = .array then h else reset h p .array) = h1 at e
    dsimp only
    split
    · refine (hu h1 _ ?_).trans e; intro _; rfl
    · refine (hu h1 _ ?_).trans e; intro _; rfl
  · have e := ifReset_owner (h := h) ((h.mem p).dt = .object) p .object q
    generalize (if (h.mem p).dt = .object then h else reset h p .object) = h1 at e
    have e2 := objIndex_owner (h := h1) E p name q
    dsimp only
    split
    · refine (hu _ _ ?_).trans (e2.trans e); intro _; rfl
    · refine (hu _ _ ?_).trans (e2.trans e); intro _; rfl

theorem setKeyValue_same (E : Env) (p : Ptr) (name : Bytes) (v : Option Ptr) :
    (setKeyValue E h p name v).caches = h.caches ∧ (setKeyValue E h p name v).next = h.next ∧ (setKeyValue E h p name v).nextC = h.nextC := by
  have hr : ∀ (P : Prop) [Decidable P] (t : VT), (if P then h else reset h p t).caches = h.caches ∧ (if P then h else reset h p t).next = h.next ∧
      (if P then h else reset h p t).nextC = h.nextC := by
    intro P _ t
    split
    · exact ⟨rfl, rfl, rfl⟩
    · unfold reset; split <;> exact ⟨rfl, rfl, rfl⟩
  unfold setKeyValue setIndexValue
  split
  · have e := hr ((h.mem p).dt = .array) .array
    generalize (if (h.mem p).dt = .array then h else reset h p .array) = h1 at e
    dsimp only
    split <;> exact e
  · have e := hr ((h.mem p).dt = .object) .object
    generalize (if (h.mem p).dt = .object then h else reset h p .object) = h1 at e
    dsimp only
    split <;> exact e

theorem avail_same {h' : Heap} (e : h'.caches = h.caches ∧ h'.next = h.next ∧ h'.nextC = h.nextC) (q : Ptr) : Avail h' q ↔ Avail h q := by
  unfold Avail; rw [e.1, e.2.1, e.2.2]

theorem Run.setKeyValue {c : Option CId} (I : Inv h) (E : Env) (p : Ptr) (name : Bytes) (v : Option Ptr) : Run c h (Heap.setKeyValue E h p name v) where
  step := I.setKeyValue_st E p name v
  avail q := (avail_same (setKeyValue_same E p name v) q).1
  owner q _ := setKeyValue_owner E p name v q
  ready d _ r := by
    obtain ⟨h1, h2, h3⟩ := setKeyValue_same (h := h) E p name v
    exact ⟨by rw [h3]; exact r.lt, by rw [h1]; exact r.root, by rw [h1]; exact r.len⟩
  took _ _ := Or.inr (fun q hq h => hq ((avail_same (setKeyValue_same E p name v) q).2 h))

end

theorem membersH_spec (E : Env) {c : Option CId} {n0 : Nat} {p : Bytes → Res (Val × Bytes)} {P : Heap → Bytes → Out (Option Ptr × Bytes)}
    (hP : PartSim c n0 p P) (r : Ptr) :
    ∀ (n : Nat) (h : Heap) (b : Bytes) (R : List Ptr) (ku : Bool) (acc : List (Bytes × Val)), n0 ≤ h.nextC → Good h (some r) (.obj ku acc) R →
      LoopSim c h r R (parseMembers E p n ku (canonM acc) b) (membersH E P r n h b)
  | 0, h, b, R, ku, acc, hn, g => ⟨rfl, .obj ku acc, R, by simp [canon], g.upd_refl, Run.refl g.inv⟩
  | n + 1, h, b, R, ku, acc, hn, g => by
    rw [parseMembers, membersH]
    refine LoopSim.read g (readCode b) ?_
    rintro ⟨code, b⟩ -
    refine LoopSim.read g (parseStr code b) ?_
    rintro ⟨key, b⟩ -
    refine LoopSim.value g (hP h b g.inv hn) ?_
    intro v b a h' v' G hv m s
    have u1 := g.upd_frame m.frame
    obtain ⟨R1, u2⟩ := setKeyValue_obj E u1.good key m.good (fun x hx hR => g.live x hR (m.fresh x hx))
    have u3 := (UpdX.trans u1 u2).absorb m.fresh
    have s3 := s.trans (Run.setKeyValue (c := c) s.step.inv E r key a)
    refine LoopSim.after u3 s3 ?_
    have := membersH_spec E hP r n _ b R1 _ _ (Nat.le_trans hn s3.step.nextC) u2.good
    have ec := canon_objPut E ku acc key v'
    unfold objPut at ec
    rw [canon] at ec
    simp only [Val.obj.injEq] at ec
    rw [ec.1, ec.2, hv] at this
    exact this

/-! ## The values -/

/-- The caches made on the way do not count. -/
theorem Run.child {c : Option CId} {h h1 h2 : Heap} {d : CId} (a : Run c h h1) (b : Run (some d) h1 h2) (hd : c = some d ∨ (c = none ∧ h.nextC ≤ d)) : Run c h h2 := by
  rcases hd with rfl | ⟨rfl, hd⟩
  · exact a.trans b
  · refine ⟨?_, fun q hq => a.avail q (b.avail q hq), ?_, (fun _ h => by cases h), (fun _ h => by cases h)⟩
    · have a' := a.step.mono (Y := fun e => some d = some e) (fun _ h => by cases h)
      exact (a'.trans b.step).narrow (fun e he => by simp at he; subst he; exact Or.inr hd)
    · intro q hq
      rw [b.owner q (fun h => hq (a.avail q h)), a.owner q hq]

/-- The result is allocated, a loop fills it, an error frees it. -/
theorem filled {c : Option CId} {h : Heap} (I : Inv h) (hc : ∀ d, c = some d → d < h.nextC) (t : VT) {x : Res (Val × Bytes)} {y : Option CId → Out Bytes}
    (hl : ∀ d, Ready (getValue h c t).2 d →
      LoopSim (some d) (getValue h c t).2 (getValue h c t).1 [(getValue h c t).1] x (y (some d))) :
    Sim c h x (((y (childCache (getValue h c t).2 c (getValue h c t).1)).orFree (getValue h c t).1).bind fun b h' => .ok (some (getValue h c t).1, b) h') := by
  have A := getValue_spec I c t hc
  have s := Run.getValue I t hc
  obtain ⟨d, e, hd, hr⟩ : ∃ d, childCache (getValue h c t).2 c (getValue h c t).1 = some d ∧ (c = some d ∨ (c = none ∧ h.nextC ≤ d)) ∧ Ready (getValue h c t).2 d := by
    cases c with
    | none =>
      obtain ⟨d, h1, h2, h3⟩ := getValue_fresh I t
      exact ⟨d, h1, Or.inr ⟨rfl, h2⟩, h3⟩
    | some d => exact ⟨d, rfl, Or.inl rfl, getValue_ready I d t (hc d rfl)⟩
  rw [e]
  have l := hl d hr
  have ow : Own h → ∀ d, c = some d → Ready h d → ((getValue h c t).2.mem (getValue h c t).1).owner = none := by
    rintro O d rfl hr; exact getValue_owner I O d t hr
  generalize y (some d) = z at l
  match x, z, l with
  | .ok (v, b), .ok b' h', ⟨e, v', R', hv, u, s'⟩ =>
    subst e
    exact ⟨rfl, v', R', hv, (Made.of A u).opt, s.child s' hd⟩
  | .err _, .err _ h', ⟨e, I', hn, hf⟩ =>
    refine ⟨e, I'.freeValue _, ?_, fun O => ?_⟩
    · have := freeValue_nextC h' (some (getValue h c t).1)
      exact Nat.le_trans (Nat.le_trans s.step.nextC hn) (Nat.le_of_eq this.symm)
    · obtain ⟨v', R', u, s'⟩ := hf (s.step.own O) ⟨d, rfl, hr⟩
      refine Or.inr ⟨h', _, v', R', Made.of A u, A.ge, s.child s' hd, rfl, fun d' hd' hr' => ?_⟩
      rw [s'.owner _ A.isnt]
      exact ow O d' hd' hr'
  | .panic, .panic, _ => trivial
  | .loop, .loop, _ => trivial
where
  freeValue_nextC (h : Heap) (v : Option Ptr) : (freeValue h v).nextC = h.nextC := by
    have hcl : ∀ (h : Heap) (p : Ptr), (clear h p).nextC = h.nextC := by
      intro h p; unfold clear; dsimp only; split <;> rfl
    unfold freeValue
    split
    · rfl
    · rename_i p
      dsimp only
      split
      · exact hcl h p
      · exact hcl h p

theorem Sim.made {c : Option CId} {h : Heap} {x : Ptr × Heap} {v v' : Val} {b : Bytes} {F : List Ptr} (m : Made h x.1 x.2 v' F ∧ Run c h x.2) (hv : canon v' = v) :
    Sim c h (.ok (v, b)) (ret x b) := ⟨rfl, v', F, hv, m.1.opt, m.2⟩

theorem alloc_sim {c : Option CId} {h : Heap} (I : Inv h) (hc : ∀ d, c = some d → d < h.nextC) (t : VT) {v : Val} {b : Bytes}
    (hv : ∀ cell, canon (blankVal t cell) = v) : Sim c h (.ok (v, b)) (ret (getValue h c t) b) := by
  have A := getValue_spec I c t hc
  exact ⟨rfl, _, _, hv _, (Made.of A A.good.upd_refl).opt, Run.getValue I t hc⟩

theorem arrayH_spec {p : Bytes → Res (Val × Bytes)} {P : Option CId → Heap → Bytes → Out (Option Ptr × Bytes)}
    (hP : ∀ c h b, Inv h → (∀ d, c = some d → d < h.nextC) → Sim c h (p b) (P c h b)) (code : UInt8) {h : Heap} (b : Bytes) {c : Option CId}
    (I : Inv h) (hc : ∀ d, c = some d → d < h.nextC) : Sim c h (parseArray p code b) (arrayH P code h b c) := by
  refine Sim.read I (parseArrLen code b) ?_
  rintro ⟨n, b⟩ -
  dsimp only
  split
  · rename_i h0
    subst h0
    exact alloc_sim I hc .array (fun _ => rfl)
  · refine filled I hc .array (y := fun c' => elemsH (P c') (getValue h c .array).1 n (getValue h c .array).2 b) (fun d hr => ?_)
    have A := getValue_spec I c .array hc
    have := elemsH_spec (fun h b I hn => hP (some d) h b I (fun d' e => by cases e; exact Nat.lt_of_lt_of_le hr.lt hn)) (getValue h c .array).1 n _ b _ [] (Nat.le_refl _) A.good
    simpa [canonL] using this

theorem objectH_spec (E : Env) {p : Bytes → Res (Val × Bytes)} {P : Option CId → Heap → Bytes → Out (Option Ptr × Bytes)}
    (hP : ∀ c h b, Inv h → (∀ d, c = some d → d < h.nextC) → Sim c h (p b) (P c h b)) (code : UInt8) {h : Heap} (b : Bytes) {c : Option CId}
    (I : Inv h) (hc : ∀ d, c = some d → d < h.nextC) : Sim c h (parseObject E p code b) (objectH E P code h b c) := by
  refine Sim.read I (parseMapLen code b) ?_
  rintro ⟨n, b⟩ -
  dsimp only
  split
  · rename_i h0
    subst h0
    exact alloc_sim I hc .object (fun _ => rfl)
  · cases b with
    | nil => trivial
    | cons k b =>
      dsimp only
      split
      · exact ⟨rfl, ErrOk.same I⟩
      · refine filled I hc .object (y := fun c' => membersH E (P c') (getValue h c .object).1 n (getValue h c .object).2 (k :: b)) (fun d hr => ?_)
        have A := getValue_spec I c .object hc
        have := membersH_spec E (fun h b I hn => hP (some d) h b I (fun d' e => by cases e; exact Nat.lt_of_lt_of_le hr.lt hn)) (getValue h c .object).1 n _ (k :: b) _ false []
          (Nat.le_refl _) A.good
        simpa [canonM] using this

theorem binH_spec (code : UInt8) {h : Heap} (b : Bytes) {c : Option CId}
    (I : Inv h) (hc : ∀ d, c = some d → d < h.nextC) : Sim c h (parseBin code b) (binH code h b c) := by
  refine Sim.read I (parseLen code b) ?_
  rintro ⟨n, b⟩ -
  dsimp only
  split
  · exact Sim.made (newBin_made I hc _) rfl
  · exact ⟨rfl, ErrOk.same I⟩

theorem extH_spec (E : Env) (code : UInt8) {h : Heap} (b : Bytes) {c : Option CId}
    (I : Inv h) (hc : ∀ d, c = some d → d < h.nextC) : Sim c h (parseExt E code b) (extH E code h b c) := by
  refine Sim.read I (parseExtLen code b) ?_
  rintro ⟨n, b⟩ -
  dsimp only
  split
  · exact ⟨rfl, ErrOk.same I⟩
  · refine Sim.read I (sliceFrom (n + 1) b) ?_
    rintro tail -
    cases b with
    | nil => trivial
    | cons ty b =>
      dsimp only
      split
      · refine Sim.read I (parseTime E code (ty :: b)) ?_
        rintro x -
        exact Sim.made (newTime_made I hc _) rfl
      · exact Sim.made (newExBin_made I hc _) rfl

/-- The decoder in memory does what the decoder on trees does, whatever the memory was. -/
theorem parseValueH_spec (E : Env) : ∀ (fuel : Nat) (c : Option CId) (h : Heap) (b : Bytes), Inv h → (∀ d, c = some d → d < h.nextC) →
    Sim c h (parseValue E fuel b) (parseValueH E fuel c h b)
  | 0, c, h, b, I, hc => trivial
  | fuel + 1, c, h, b, I, hc => by
    rw [parseValue, parseValueH]
    refine Sim.read I (readCode b) ?_
    rintro ⟨code, b⟩ -
    dsimp only
    have u : ∀ (x : Res (Nat × Bytes)) (f : Nat → BitVec 64), Sim c h (x >>= fun ub => .ok (.int 0 (f ub.1), ub.2))
        ((Out.lift x h).bind fun ub h => ret (newInt h c (f ub.1)) ub.2) := by
      intro x f
      refine Sim.read I x ?_
      rintro ⟨n, b⟩ -
      exact Sim.made (newInt_made I hc _) rfl
    by_cases h1 : isStr code = true
    · simp only [if_pos h1]
      refine Sim.read I (parseStr code b) ?_
      rintro ⟨s, b⟩ -
      exact Sim.made (newStr_made I hc _) rfl
    simp only [if_neg h1]
    by_cases h2 : isArray code = true
    · simp only [if_pos h2]
      exact arrayH_spec (fun c h b I hc => parseValueH_spec E fuel c h b I hc) code b I hc
    simp only [if_neg h2]
    by_cases h3 : isMap code = true
    · simp only [if_pos h3]
      exact objectH_spec E (fun c h b I hc => parseValueH_spec E fuel c h b I hc) code b I hc
    simp only [if_neg h3]
    by_cases h4 : isFixedNum code = true
    · simp only [if_pos h4]
      exact Sim.made (newInt_made I hc _) rfl
    simp only [if_neg h4]
    by_cases h5 : (code == 0xcc) = true
    · simp only [if_pos h5]; exact u _ _
    simp only [if_neg h5]
    by_cases h6 : (code == 0xd0) = true
    · simp only [if_pos h6]; exact u _ _
    simp only [if_neg h6]
    by_cases h7 : (code == 0xcd) = true
    · simp only [if_pos h7]; exact u _ _
    simp only [if_neg h7]
    by_cases h8 : (code == 0xd1) = true
    · simp only [if_pos h8]; exact u _ _
    simp only [if_neg h8]
    by_cases h9 : (code == 0xce) = true
    · simp only [if_pos h9]; exact u _ _
    simp only [if_neg h9]
    by_cases h10 : (code == 0xd2) = true
    · simp only [if_pos h10]; exact u _ _
    simp only [if_neg h10]
    by_cases h11 : (code == 0xd3 || code == 0xcf) = true
    · simp only [if_pos h11]; exact u _ _
    simp only [if_neg h11]
    by_cases h12 : (code == 0xca) = true
    · simp only [if_pos h12]
      refine Sim.read I (parseUint32 b) ?_
      rintro ⟨n, b⟩ -
      obtain ⟨cell, e, m⟩ := newFloat_made I hc (BitVec.ofNat 32 n)
      refine Sim.made m ?_
      rw [canon, e]; rfl
    simp only [if_neg h12]
    by_cases h13 : (code == 0xcb) = true
    · simp only [if_pos h13]
      refine Sim.read I (parseUint64 b) ?_
      rintro ⟨n, b⟩ -
      exact Sim.made (newDouble_made I hc _) rfl
    simp only [if_neg h13]
    by_cases h14 : (code == 0xc3) = true
    · simp only [if_pos h14]; exact Sim.ok (v' := .tru) rfl (made_const I (by decide) rfl) (Run.refl I)
    simp only [if_neg h14]
    by_cases h15 : (code == 0xc2) = true
    · simp only [if_pos h15]; exact Sim.ok (v' := .fls) rfl (made_const I (by decide) rfl) (Run.refl I)
    simp only [if_neg h15]
    by_cases h16 : (code == 0xc0) = true
    · simp only [if_pos h16]; exact Sim.ok (v' := .null) rfl (made_const I (by decide) rfl) (Run.refl I)
    simp only [if_neg h16]
    by_cases h17 : isBin code = true
    · simp only [if_pos h17]; exact binH_spec code b I hc
    simp only [if_neg h17]
    by_cases h18 : isExt code = true
    · simp only [if_pos h18]; exact extH_spec E code b I hc
    simp only [if_neg h18]
    exact Sim.ok (v' := .nil) rfl (made_nil I) (Run.refl I)

end Dxs.Heap
