import Verif.Load.Json
import Verif.Heap.World

/-!
# Loading into a value that exists (`LoadFromMsgPack`, `LoadFromJson`)
-/

namespace Dxs.Heap
open MsgPack

/-- Only the contents of nodes changed. -/
structure Same (h h' : Heap) : Prop where
  caches : h'.caches = h.caches
  next : h'.next = h.next
  nextC : h'.nextC = h.nextC
  owner : ∀ q, (h'.mem q).owner = (h.mem q).owner

theorem Same.refl (h : Heap) : Same h h := ⟨rfl, rfl, rfl, fun _ => rfl⟩

theorem Same.trans {h h1 h2 : Heap} (a : Same h h1) (b : Same h1 h2) : Same h h2 :=
  ⟨b.caches.trans a.caches, b.next.trans a.next, b.nextC.trans a.nextC, fun q => (b.owner q).trans (a.owner q)⟩

theorem Same.upd (h : Heap) (p : Ptr) {f : Node → Node} (hf : ∀ n, (f n).owner = n.owner) : Same h (h.upd p f) := by
  refine ⟨rfl, rfl, rfl, fun q => ?_⟩
  by_cases e : q = p
  · subst e; rw [upd_mem_same, hf]
  · rw [upd_mem_ne _ _ e]

theorem Same.reset (h : Heap) (p : Ptr) (t : VT) : Same h (Heap.reset h p t) := by
  unfold Heap.reset
  split
  · exact Same.refl h
  · exact Same.upd h p (fun _ => rfl)

theorem Same.ite {h h1 h2 : Heap} {P : Prop} [Decidable P] (a : Same h h1) (b : Same h h2) : Same h (if P then h1 else h2) := by
  split
  · exact a
  · exact b

theorem Same.run {h h' : Heap} (a : Same h h') {c : Option CId} (s : Step (fun d => c = some d) h h') : Run c h h' where
  step := s
  avail q := (avail_same ⟨a.caches, a.next, a.nextC⟩ q).1
  owner q _ := a.owner q
  ready d _ r := ⟨by rw [a.nextC]; exact r.lt, by rw [a.caches]; exact r.root, by rw [a.caches]; exact r.len⟩
  took _ _ := Or.inr (fun q hq h => hq ((avail_same ⟨a.caches, a.next, a.nextC⟩ q).2 h))

section
variable {h : Heap} {c : Option CId}

theorem Run.reset (I : Inv h) (p : Ptr) (t : VT) : Run c h (Heap.reset h p t) := (Same.reset h p t).run (I.reset_st p t)

theorem Run.setInt (I : Inv h) (p : Ptr) (x : BitVec 64) : Run c h (Heap.setInt h p x) := by
  refine Same.run ?_ (I.setInt_st p x)
  unfold Heap.setInt
  exact (Same.ite (Same.refl h) (Same.reset h p _)).trans (Same.upd _ _ (fun _ => rfl))

theorem Run.setFloat (I : Inv h) (p : Ptr) (x : F32) : Run c h (Heap.setFloat h p x) := by
  refine Same.run ?_ (I.setFloat_st p x)
  unfold Heap.setFloat
  refine Same.ite (Same.refl h) ?_
  exact (Same.ite (Same.reset h p _) (Same.refl h)).trans (Same.upd _ _ (fun _ => rfl))

theorem Run.setDouble (I : Inv h) (p : Ptr) (x : F64) : Run c h (Heap.setDouble h p x) := by
  refine Same.run ?_ (I.setDouble_st p x)
  unfold Heap.setDouble
  refine Same.ite (Same.refl h) ?_
  exact (Same.ite (Same.reset h p _) (Same.refl h)).trans (Same.upd _ _ (fun _ => rfl))

end

/-! ## MessagePack -/

/-- `parseMsgPackArray2V`, msgpackparse.go:137-156. -/
def array2H (E : Env) (fuel : Nat) (p : Ptr) (code : UInt8) (h : Heap) (b : Bytes) : Out Bytes :=
  let c := (h.mem p).owner
  (Out.lift (parseArrLen code b) h).bind fun nb h =>
  if nb.1 = 0 then .ok nb.2 h
  else elemsH (parseValueH E fuel c) p nb.1 (reset h p .array) nb.2

/-- `parseMsgPackObject2v`, msgpackparse.go:28-65. -/
def object2H (E : Env) (fuel : Nat) (p : Ptr) (code : UInt8) (h : Heap) (b : Bytes) : Out Bytes :=
  let c := (h.mem p).owner
  (Out.lift (parseMapLen code b) h).bind fun nb h =>
  if nb.1 = 0 then .ok nb.2 h
  else
    match nb.2 with
    | [] => .panic
    | k :: _ =>
      if !(isStr k) then .err .mapKey h
      else membersH E (parseValueH E fuel c) p nb.1 h nb.2

/-- The binary branch of `parseMsgPack2Value`, msgpackparse.go:427-444. -/
def bin2H (p : Ptr) (code : UInt8) (h : Heap) (b : Bytes) : Out Bytes :=
  (Out.lift (parseLen code b) h).bind fun nb h =>
  if nb.1 ≤ nb.2.length then .ok (nb.2.drop nb.1) (h.upd p (fun n => { n with bin := n.bin ++ nb.2.take nb.1 }))
  else .err (.truncated nb.1 nb.2.length) h

/-- The extension branch of `parseMsgPack2Value`, msgpackparse.go:445-482. -/
def ext2H (E : Env) (p : Ptr) (code : UInt8) (h : Heap) (b : Bytes) : Out Bytes :=
  (Out.lift (parseExtLen code b) h).bind fun nb h =>
  if nb.2.length < nb.1 then .err (.truncated nb.1 nb.2.length) h
  else
    (Out.lift (sliceFrom (nb.1 + 1) nb.2) h).bind fun tail h =>
    match nb.2 with
    | [] => .panic
    | ty :: _ =>
      if isTime code ty then (Out.lift (parseTime E code nb.2) h).bind fun x h => .ok tail (setDouble h p x)
      else .ok tail (h.upd p (fun n => { n with bin := n.bin ++ nb.2.take (nb.1 + 1) }))

/-- `parseMsgPack2Value`, msgpackparse.go:330-485. The `string` branch shadows `tail`, so nil is returned. Simplification: with
`sharebinary` the binary branches replace `fbinary` instead of appending to it; the only caller has emptied it (`Clear`). -/
def parse2H (E : Env) (fuel : Nat) (p : Ptr) (h : Heap) (b : Bytes) : Out Bytes :=
  (Out.lift (readCode b) h).bind fun cb h =>
  let code := cb.1
  let b := cb.2
  let num (x : Res (Nat × Bytes)) (f : Nat → BitVec 64) : Out Bytes := (Out.lift x h).bind fun ub h => .ok ub.2 (setInt h p (f ub.1))
  if isStr code then (Out.lift (parseStr code b) h).bind fun sb h => .ok [] (h.upd p (fun n => { n with str := sb.1 }))
  else if isArray code then array2H E fuel p code h b
  else if isMap code then object2H E fuel p code h b
  else if isFixedNum code then .ok b (setInt h p (sx8 code.toNat))
  else if code == 0xcc then num (parseUint8 b) (BitVec.ofNat 64)
  else if code == 0xd0 then num (parseUint8 b) sx8
  else if code == 0xcd then num (parseUint16 b) (BitVec.ofNat 64)
  else if code == 0xd1 then num (parseUint16 b) sx16
  else if code == 0xce then num (parseUint32 b) (BitVec.ofNat 64)
  else if code == 0xd2 then num (parseUint32 b) sx32
  else if code == 0xd3 || code == 0xcf then num (parseUint64 b) (BitVec.ofNat 64)
  else if code == 0xca then (Out.lift (parseUint32 b) h).bind fun ub h => .ok ub.2 (setFloat h p (BitVec.ofNat 32 ub.1))
  else if code == 0xcb then (Out.lift (parseUint64 b) h).bind fun ub h => .ok ub.2 (setDouble h p (BitVec.ofNat 64 ub.1))
  else if code == 0xc3 then .ok b (reset h p .true)
  else if code == 0xc2 then .ok b (reset h p .false)
  else if code == 0xc0 then .ok b (reset h p .null)
  else if isBin code then bin2H p code h b
  else if isExt code then ext2H E p code h b
  else .ok [] h

/-- `LoadFromMsgPack`, dxvalue.go:259-266. -/
def loadMsgPackH (E : Env) (h : Heap) (p : Ptr) (b : Bytes) : Out Unit :=
  let h := clear h p
  if b.length = 0 then .ok () h
  else (parse2H E b.length p h b).bind fun _ h => .ok () h

/-! ### The documents that are loaded properly -/

/-- A document, by its first byte, that a value with the (cleared) contents `w` can load: see `parse2H_spec` for what happens to it and
the counterexamples for why the others are left out. -/
def Fits (w : Val) : Bytes → Prop
  | [] => True
  | code :: b =>
    if isStr code then False
    else if isArray code then ∀ n t, parseArrLen code b = .ok (n, t) → n ≠ 0
    else if isMap code then w.vt ≠ .array ∧ ∀ n t, parseMapLen code b = .ok (n, t) → n ≠ 0
    else if code == 0xca || code == 0xc3 || code == 0xc2 || code == 0xc0 then True
    else if code == 0xcb then w.vt ≠ .dateTime
    else if isBin code || isExt code || code == 0xc1 then False
    else ∀ e x, w = .int e x → e = 0

/-- The object part of a value. -/
def asObj : Val → Bool × List (Bytes × Val)
  | .obj ku kvs => (ku, kvs)
  | _ => (false, [])

/-- `SetKeyValue` on anything but an array. -/
theorem setKeyValue_put (E : Env) {h : Heap} {p : Ptr} (h5 : 5 ≤ p) {v : Val} {F : List Ptr} (g : Good h (some p) v F) (ha : v.vt ≠ .array)
    (name : Bytes) {b : Option Ptr} {w : Val} {G : List Ptr} (gw : Good h b w G) (hd : ∀ q ∈ G, q ∉ F) :
    ∃ F', UpdX G h F (setKeyValue E h p name b) (some p) (objPut E (asObj v).1 (asObj v).2 name w) F' := by
  have hdt := rep_dt g.rep
  by_cases ho : v.vt = .object
  · cases v <;> simp [Val.vt] at ho
    exact setKeyValue_obj E g name gw hd
  · have e : setKeyValue E h p name b = setKeyValue E (reset h p .object) p name b := by
      have hr : ((reset h p .object).mem p).dt = .object := by rw [reset_mem h5]; rfl
      unfold setKeyValue
      rw [if_neg (by rw [hdt]; simp [ha]), if_neg (by rw [hdt]; exact ho), if_neg (by rw [hr]; simp), if_pos hr]
    have u := reset_upd g h5 .object
    obtain ⟨F', u2⟩ := setKeyValue_obj E (ku := false) (kvs := []) u.good name (gw.frame u.frame hd) (fun q hq h => by
      simp at h; subst h; exact hd q hq (rep_mem g.rep h5))
    refine ⟨F', ?_⟩
    rw [e]
    have ea : asObj v = (false, []) := by cases v <;> simp [Val.vt] at ho <;> rfl
    rw [ea]
    exact UpdX.trans u u2

theorem membersH_any (E : Env) {c : Option CId} {n0 : Nat} {q : Bytes → Res (Val × Bytes)} {P : Heap → Bytes → Out (Option Ptr × Bytes)}
    (hP : PartSim c n0 q P) (p : Ptr) (h5 : 5 ≤ p) (n : Nat) (hn : n ≠ 0) (h : Heap) (b : Bytes) (R : List Ptr) (w : Val) (ha : w.vt ≠ .array)
    (hn0 : n0 ≤ h.nextC) (g : Good h (some p) w R) :
    LoopSim c h p R (parseMembers E q n (asObj w).1 (canonM (asObj w).2) b) (membersH E P p n h b) := by
  cases n with
  | zero => exact absurd rfl hn
  | succ n =>
    rw [parseMembers, membersH]
    refine LoopSim.read g (readCode b) ?_
    rintro ⟨code, b⟩ -
    refine LoopSim.read g (parseStr code b) ?_
    rintro ⟨key, b⟩ -
    refine LoopSim.value g (hP h b g.inv hn0) ?_
    intro v b a h' v' G hv m s
    have u1 := g.upd_frame m.frame
    obtain ⟨R1, u2⟩ := setKeyValue_put E h5 u1.good ha key m.good (fun x hx hR => g.live x hR (m.fresh x hx))
    have u3 := (UpdX.trans u1 u2).absorb m.fresh
    have s3 := s.trans (Run.setKeyValue (c := c) s.step.inv E p key a)
    refine LoopSim.after u3 s3 ?_
    have := membersH_spec E hP p n _ b R1 _ _ (Nat.le_trans hn0 s3.step.nextC) u2.good
    have ec := canon_objPut E (asObj w).1 (asObj w).2 key v'
    unfold objPut at ec
    rw [canon] at ec
    simp only [Val.obj.injEq] at ec
    rw [ec.1, ec.2, hv] at this
    exact this

set_option maxRecDepth 2000 in
/-- The branches of the decoder cover all codes. -/
theorem code_kinds (code : UInt8) : (isStr code || isArray code || isMap code || code == 0xca || code == 0xc3 || code == 0xc2 || code == 0xc0 ||
    code == 0xcb || isFixedNum code || (isBin code || isExt code) || code == 0xc1 || code == 0xcc || code == 0xd0 || code == 0xcd || code == 0xd1 ||
    code == 0xce || code == 0xd2 || (code == 0xd3 || code == 0xcf)) = true := by
  have key : ∀ n : Fin 256, (fun code : UInt8 => (isStr code || isArray code || isMap code || code == 0xca || code == 0xc3 || code == 0xc2 || code == 0xc0 ||
    code == 0xcb || isFixedNum code || (isBin code || isExt code) || code == 0xc1 || code == 0xcc || code == 0xd0 || code == 0xcd || code == 0xd1 ||
    code == 0xce || code == 0xd2 || (code == 0xd3 || code == 0xcf)) = true) (UInt8.ofNat n) := by decide
  have := key ⟨code.toNat, code.toNat_lt⟩
  simpa using this

set_option maxRecDepth 2000 in
theorem fixed_kind (code : UInt8) (hc : isFixedNum code = true) : (isBin code || isExt code || code == 0xc1) = false := by
  have key : ∀ n : Fin 256, (fun code : UInt8 => isFixedNum code = true → (isBin code || isExt code || code == 0xc1) = false) (UInt8.ofNat n) := by
    decide
  have := key ⟨code.toNat, code.toNat_lt⟩
  simp only [UInt8.ofNat_toNat] at this
  exact this hc

set_option maxRecDepth 2000 in
theorem binext_kind (code : UInt8) (hc : (isBin code || isExt code || code == 0xc1) = true) :
    ((code == 0xcc) || (code == 0xd0) || (code == 0xcd) || (code == 0xd1) || (code == 0xce) || (code == 0xd2) || (code == 0xd3 || code == 0xcf)) = false := by
  have key : ∀ n : Fin 256, (fun code : UInt8 => (isBin code || isExt code || code == 0xc1) = true →
      ((code == 0xcc) || (code == 0xd0) || (code == 0xcd) || (code == 0xd1) || (code == 0xce) || (code == 0xd2) || (code == 0xd3 || code == 0xcf)) = false)
      (UInt8.ofNat n) := by decide
  have := key ⟨code.toNat, code.toNat_lt⟩
  simp only [UInt8.ofNat_toNat] at this
  exact this hc

/-- A document that fits is loaded as it is decoded. The value must be empty if it is an object or array. -/
theorem parse2H_spec (E : Env) (fuel : Nat) {p : Ptr} (h5 : 5 ≤ p) {h : Heap} (b : Bytes) {w : Val} {R : List Ptr} (g : Good h (some p) w R)
    (hw : clearVal w = w) (hf : Fits w b) :
    LoopSim (h.mem p).owner h p R (parseValue E (fuel + 1) b) (parse2H E fuel p h b) := by
  have hc : ∀ d, (h.mem p).owner = some d → d < h.nextC := fun d => g.inv.owner p d
  have part : ∀ h' : Heap, h.nextC ≤ h'.nextC → PartSim (h.mem p).owner h'.nextC (parseValue E fuel) (parseValueH E fuel (h.mem p).owner) :=
    fun h' hh h'' b I hn => parseValueH_spec E fuel _ h'' b I (fun d hd => Nat.lt_of_lt_of_le (hc d hd) (Nat.le_trans hh hn))
  have hasw : asObj w = (false, []) := by
    cases w with
    | obj ku kvs => simp only [clearVal, Val.obj.injEq] at hw; simp [asObj, ← hw.1, ← hw.2]
    | _ => rfl
  rw [parseValue, parse2H]
  unfold array2H object2H
  dsimp only
  obtain ⟨c, hco⟩ : ∃ c, (h.mem p).owner = c := ⟨_, rfl⟩
  rw [hco] at part ⊢
  cases b with
  | nil => exact LoopSim.read g (readCode []) (fun a ha => by cases ha)
  | cons code b =>
  refine LoopSim.read g (readCode (code :: b)) ?_
  rintro ⟨_, _⟩ hcb
  cases hcb
  unfold Fits at hf
  dsimp only at hf ⊢
  have setI : ∀ (x : BitVec 64) (t : Bytes), (∀ e y, w = .int e y → e = 0) → LoopSim c h p R (.ok (.int 0 x, t)) (.ok t (setInt h p x)) := by
    intro x t hi
    obtain ⟨e, u, h1, h2⟩ := setInt_upd g h5 x
    have he : e = 0 := by
      by_cases hv : w.vt = .int
      · cases w <;> simp [Val.vt] at hv
        rename_i e' y
        rw [h1 e' y rfl]; exact hi e' y rfl
      · exact h2 hv
    subst he
    exact LoopSim.after u (Run.setInt g.inv p x) (LoopSim.done u.good rfl t)
  have num : ∀ (x : Res (Nat × Bytes)) (f : Nat → BitVec 64), (∀ e y, w = .int e y → e = 0) →
      LoopSim c h p R (x >>= fun ub => .ok (.int 0 (f ub.1), ub.2)) ((Out.lift x h).bind fun ub h => .ok ub.2 (setInt h p (f ub.1))) := by
    intro x f hi
    refine LoopSim.read g x ?_
    rintro ⟨n, t⟩ -
    exact setI _ _ hi
  have rst : ∀ (t : VT) {v : Val} (b : Bytes), (∀ cell, canon (blankVal t cell) = v) → LoopSim c h p R (.ok (v, b)) (.ok b (reset h p t)) := by
    intro t v b hv
    have u := reset_upd g h5 t
    exact LoopSim.after u (Run.reset g.inv p t) (LoopSim.done u.good (hv _) b)
  by_cases h1 : isStr code = true
  · rw [if_pos h1] at hf; exact hf.elim
  simp only [if_neg h1] at hf ⊢
  by_cases h2 : isArray code = true
  · simp only [if_pos h2] at hf ⊢
    refine LoopSim.read g (parseArrLen code b) ?_
    rintro ⟨n, t⟩ hl
    have hn := hf n t hl
    simp only [if_neg hn, hco]
    have u := reset_upd g h5 .array
    refine LoopSim.after u (Run.reset g.inv p .array) ?_
    have := elemsH_spec (part _ (Nat.le_of_eq (Same.reset h p .array).nextC.symm)) p n (reset h p .array) t [p] [] (Nat.le_refl _) u.good
    simpa [canonL] using this
  simp only [if_neg h2] at hf ⊢
  by_cases h3 : isMap code = true
  · simp only [if_pos h3] at hf ⊢
    refine LoopSim.read g (parseMapLen code b) ?_
    rintro ⟨n, t⟩ hl
    have hn := hf.2 n t hl
    simp only [if_neg hn, hco]
    cases t with
    | nil => trivial
    | cons k t =>
      dsimp only
      split
      · exact LoopSim.err g _
      · have := membersH_any E (part h (Nat.le_refl _)) p h5 n hn h (k :: t) R w hf.1 (Nat.le_refl _) g
        rw [hasw] at this
        simpa [canonM] using this
  simp only [if_neg h3] at hf ⊢
  by_cases h12 : (code == 0xca) = true
  · have := eq_of_beq h12
    subst this
    simp (config := { decide := true }) only [if_true, if_false]
    refine LoopSim.read g (parseUint32 b) ?_
    rintro ⟨n, t⟩ -
    obtain ⟨cell, u⟩ := setFloat_upd g h5 (BitVec.ofNat 32 n)
    refine LoopSim.after u (Run.setFloat g.inv p _) (LoopSim.done u.good ?_ t)
    rw [canon, lo32_setLo32]; rfl
  by_cases h14 : (code == 0xc3) = true
  · have := eq_of_beq h14
    subst this
    simp (config := { decide := true }) only [if_true, if_false]
    exact rst .true b (fun _ => rfl)
  by_cases h15 : (code == 0xc2) = true
  · have := eq_of_beq h15
    subst this
    simp (config := { decide := true }) only [if_true, if_false]
    exact rst .false b (fun _ => rfl)
  by_cases h16 : (code == 0xc0) = true
  · have := eq_of_beq h16
    subst this
    simp (config := { decide := true }) only [if_true, if_false]
    exact rst .null b (fun _ => rfl)
  by_cases h13 : (code == 0xcb) = true
  · have := eq_of_beq h13
    subst this
    simp (config := { decide := true }) only [if_true, if_false] at hf ⊢
    refine LoopSim.read g (parseUint64 b) ?_
    rintro ⟨n, t⟩ -
    have u := setDouble_upd g h5 (BitVec.ofNat 64 n)
    rw [if_neg hf] at u
    exact LoopSim.after u (Run.setDouble g.inv p _) (LoopSim.done u.good rfl t)
  simp only [h12, h13, h14, h15, h16, Bool.or_self, Bool.false_eq_true, if_false] at hf ⊢
  by_cases h4 : isFixedNum code = true
  · have hno : (isBin code || isExt code || code == 0xc1) = false := fixed_kind code h4
    rw [hno] at hf
    simp only [if_pos h4]
    exact setI _ _ hf
  simp only [if_neg h4]
  by_cases hx : (isBin code || isExt code || code == 0xc1) = true
  · rw [if_pos hx] at hf; exact hf.elim
  rw [if_neg hx] at hf
  simp only [Bool.or_eq_true, not_or] at hx
  by_cases h5 : (code == 0xcc) = true
  · simp only [if_pos h5]; exact num _ _ hf
  simp only [if_neg h5]
  by_cases h6 : (code == 0xd0) = true
  · simp only [if_pos h6]; exact num _ _ hf
  simp only [if_neg h6]
  by_cases h7 : (code == 0xcd) = true
  · simp only [if_pos h7]; exact num _ _ hf
  simp only [if_neg h7]
  by_cases h8 : (code == 0xd1) = true
  · simp only [if_pos h8]; exact num _ _ hf
  simp only [if_neg h8]
  by_cases h9 : (code == 0xce) = true
  · simp only [if_pos h9]; exact num _ _ hf
  simp only [if_neg h9]
  by_cases h10 : (code == 0xd2) = true
  · simp only [if_pos h10]; exact num _ _ hf
  simp only [if_neg h10]
  by_cases h11 : (code == 0xd3 || code == 0xcf) = true
  · simp only [if_pos h11]; exact num _ _ hf
  exfalso
  have := code_kinds code
  simp only [Bool.not_eq_true] at h1 h2 h3 h4 h5 h6 h7 h8 h9 h10 h11 h12 h13 h14 h15 h16 hx
  simp [h1, h2, h3, h4, h5, h6, h7, h8, h9, h10, h11, h12, h13, h14, h15, h16, hx] at this

/-! ### `Clear` and the whole call -/

/-- `Clear` of a value in ordered memory. -/
theorem Good.clear {h : Heap} (O : Own h) {p : Ptr} (h5 : 5 ≤ p) {v : Val} {F : List Ptr} (g : Good h (some p) v F) :
    Good (Heap.clear h p) (some p) (clearVal v) [p] := by
  have hpF := rep_mem g.rep h5
  have hmem : (Heap.clear h p).mem p = (h.mem p).clear := by
    unfold Heap.clear
    rw [upd_mem_same]
    cases (h.mem p).owner <;> rfl
  refine ⟨g.inv.clear p, rep_clear h5 g.rep hmem, by simp, ?_⟩
  intro q hq
  simp at hq
  subst hq
  unfold Heap.clear
  cases ho : (h.mem q).owner with
  | none => exact g.live _ hpF
  | some c =>
    have hlt := g.inv.owner q c ho
    rintro (h1 | ⟨d, hd, hm⟩)
    · exact g.live _ hpF (Or.inl h1)
    · by_cases e : d = c
      · subst e
        have := O.tail d hlt q (by simpa [cacheReset, Heap.setC, Heap.upd, Heap.set] using hm)
        rw [ho] at this; cases this
      · exact g.live _ hpF (Or.inr ⟨d, hd, by simpa [cacheReset, Heap.setC, Heap.upd, Heap.set, e] using hm⟩)

/-- The documents a value `w` can load, by what they decode to. -/
def Takes (w : Val) : Val → Prop
  | .nil | .str _ | .raw _ | .bin _ _ | .exbin _ _ | .dateTime _ => False
  | .arr xs => xs ≠ []
  | .obj _ kvs => kvs ≠ [] ∧ w.vt ≠ .array
  | .int _ _ => ∀ e x, w = .int e x → e = 0
  | .double _ => w.vt ≠ .dateTime
  | _ => True

theorem Takes.clear {w v : Val} (t : Takes w v) : Takes (clearVal w) v := by
  cases w <;> cases v <;> simp_all [Takes, clearVal, Val.vt]

theorem parseMembers_obj (E : Env) (p : Bytes → Res (Val × Bytes)) : ∀ n ku kvs b v t, parseMembers E p n ku kvs b = .ok (v, t) → ∃ ku' kvs', v = .obj ku' kvs'
  | 0, ku, kvs, b, v, t, h => by
    simp only [parseMembers, Res.ok.injEq, Prod.mk.injEq] at h
    exact ⟨_, _, h.1.symm⟩
  | n + 1, ku, kvs, b, v, t, h => by
    simp only [parseMembers, Res.bind_eq_ok] at h
    obtain ⟨_, -, _, -, _, -, h⟩ := h
    exact parseMembers_obj E p n _ _ _ _ _ h

theorem fits_of {E : Env} {fuel : Nat} {b t : Bytes} {v w : Val} (ho : parseValue E (fuel + 1) b = .ok (v, t)) (ht : Takes w v) : Fits w b := by
  cases b with
  | nil => trivial
  | cons code b =>
  rw [parseValue] at ho
  have hcb : readCode (code :: b) = .ok (code, b) := rfl
  rw [hcb] at ho
  simp only [Res.bind_ok] at ho
  unfold Fits
  dsimp only
  by_cases h1 : isStr code = true
  · simp only [if_pos h1, Res.bind_eq_ok, Res.ok.injEq, Prod.mk.injEq] at ho
    obtain ⟨_, -, e, -⟩ := ho; subst e; exact ht.elim
  simp only [if_neg h1] at ho ⊢
  by_cases h2 : isArray code = true
  · simp only [if_pos h2] at ho ⊢
    intro n t' hl hn
    subst hn
    simp only [parseArray, hl, Res.bind_ok, parseElems, Res.ok.injEq, Prod.mk.injEq] at ho
    rw [← ho.1] at ht
    exact ht rfl
  simp only [if_neg h2] at ho ⊢
  by_cases h3 : isMap code = true
  · simp only [if_pos h3] at ho ⊢
    have hv : ∃ ku kvs, v = .obj ku kvs := by
      simp only [parseObject, Res.bind_eq_ok] at ho
      obtain ⟨⟨n, b'⟩, -, ho⟩ := ho
      dsimp only at ho
      split at ho
      · simp only [Res.ok.injEq, Prod.mk.injEq] at ho; exact ⟨_, _, ho.1.symm⟩
      · split at ho
        · cases ho
        · split at ho
          · cases ho
          · exact parseMembers_obj E _ _ _ _ _ _ _ ho
    obtain ⟨ku, kvs, rfl⟩ := hv
    refine ⟨ht.2, ?_⟩
    intro n t' hl hn
    subst hn
    simp only [parseObject, hl, Res.bind_ok, if_true, Res.ok.injEq, Prod.mk.injEq, Val.obj.injEq] at ho
    exact ht.1 ho.1.2.symm
  simp only [if_neg h3] at ho ⊢
  by_cases hs : (code == 0xca || code == 0xc3 || code == 0xc2 || code == 0xc0) = true
  · rw [if_pos hs]; trivial
  rw [if_neg hs]
  simp only [Bool.or_eq_true, not_or] at hs
  by_cases h13 : (code == 0xcb) = true
  · rw [if_pos h13]
    have := eq_of_beq h13
    subst this
    simp (config := { decide := true }) only [if_true, if_false, Res.bind_eq_ok, Res.ok.injEq, Prod.mk.injEq] at ho
    obtain ⟨_, -, e, -⟩ := ho; subst e; exact ht
  rw [if_neg h13]
  by_cases hx : (isBin code || isExt code || code == 0xc1) = true
  · exfalso
    have hfix : ¬isFixedNum code = true := fun h => by rw [fixed_kind code h] at hx; cases hx
    have hbe : isBin code = true ∨ isBin code = false ∧ isExt code = true ∨ isBin code = false ∧ isExt code = false := by
      cases isBin code <;> cases isExt code <;> simp
    have hnum : ((code == 0xcc) || (code == 0xd0) || (code == 0xcd) || (code == 0xd1) || (code == 0xce) || (code == 0xd2) || (code == 0xd3 || code == 0xcf)) = false := by
      simpa using binext_kind code hx
    simp only [Bool.or_eq_false_iff] at hnum
    obtain ⟨⟨⟨⟨⟨⟨k1, k2⟩, k3⟩, k4⟩, k5⟩, k6⟩, k7, k8⟩ := hnum
    simp only [if_neg hfix, k1, k2, k3, k4, k5, k6, k7, k8, hs, h13, Bool.or_self, Bool.false_eq_true, if_false] at ho
    rcases hbe with hb | ⟨hb, he⟩ | ⟨hb, he⟩
    · simp only [if_pos hb, parseBin, Res.bind_eq_ok] at ho
      obtain ⟨⟨n, b'⟩, -, ho⟩ := ho
      dsimp only at ho
      split at ho
      · simp only [Res.ok.injEq, Prod.mk.injEq] at ho; rw [← ho.1] at ht; exact ht
      · cases ho
    · simp only [hb, if_pos he, parseExt, Res.bind_eq_ok, Bool.false_eq_true, if_false] at ho
      obtain ⟨⟨n, b'⟩, -, ho⟩ := ho
      dsimp only at ho
      split at ho
      · cases ho
      · simp only [Res.bind_eq_ok] at ho
        obtain ⟨tl, -, ho⟩ := ho
        split at ho
        · cases ho
        · split at ho
          · simp only [Res.bind_eq_ok, Res.ok.injEq, Prod.mk.injEq] at ho
            obtain ⟨_, -, e, -⟩ := ho; subst e; exact ht
          · simp only [Res.ok.injEq, Prod.mk.injEq] at ho; rw [← ho.1] at ht; exact ht
    · simp only [hb, he, Bool.false_eq_true, if_false, Res.ok.injEq, Prod.mk.injEq] at ho; rw [← ho.1] at ht; exact ht
  rw [if_neg hx]
  simp only [Bool.or_eq_true, not_or] at hx
  have hv : ∃ x, v = .int 0 x := by
    by_cases n0 : (isFixedNum code) = true
    · simp only [if_pos n0, Res.ok.injEq, Prod.mk.injEq] at ho; exact ⟨_, ho.1.symm⟩
    simp only [if_neg n0] at ho
    by_cases n1 : (code == 0xcc) = true
    · simp only [if_pos n1, Res.bind_eq_ok, Res.ok.injEq, Prod.mk.injEq] at ho; obtain ⟨_, -, e, -⟩ := ho; exact ⟨_, e.symm⟩
    simp only [if_neg n1] at ho
    by_cases n2 : (code == 0xd0) = true
    · simp only [if_pos n2, Res.bind_eq_ok, Res.ok.injEq, Prod.mk.injEq] at ho; obtain ⟨_, -, e, -⟩ := ho; exact ⟨_, e.symm⟩
    simp only [if_neg n2] at ho
    by_cases n3 : (code == 0xcd) = true
    · simp only [if_pos n3, Res.bind_eq_ok, Res.ok.injEq, Prod.mk.injEq] at ho; obtain ⟨_, -, e, -⟩ := ho; exact ⟨_, e.symm⟩
    simp only [if_neg n3] at ho
    by_cases n4 : (code == 0xd1) = true
    · simp only [if_pos n4, Res.bind_eq_ok, Res.ok.injEq, Prod.mk.injEq] at ho; obtain ⟨_, -, e, -⟩ := ho; exact ⟨_, e.symm⟩
    simp only [if_neg n4] at ho
    by_cases n5 : (code == 0xce) = true
    · simp only [if_pos n5, Res.bind_eq_ok, Res.ok.injEq, Prod.mk.injEq] at ho; obtain ⟨_, -, e, -⟩ := ho; exact ⟨_, e.symm⟩
    simp only [if_neg n5] at ho
    by_cases n6 : (code == 0xd2) = true
    · simp only [if_pos n6, Res.bind_eq_ok, Res.ok.injEq, Prod.mk.injEq] at ho; obtain ⟨_, -, e, -⟩ := ho; exact ⟨_, e.symm⟩
    simp only [if_neg n6] at ho
    by_cases n7 : (code == 0xd3 || code == 0xcf) = true
    · simp only [if_pos n7, Res.bind_eq_ok, Res.ok.injEq, Prod.mk.injEq] at ho; obtain ⟨_, -, e, -⟩ := ho; exact ⟨_, e.symm⟩
    simp only [if_neg n7] at ho
    exfalso
    have := code_kinds code
    simp only [Bool.not_eq_true] at h1 h2 h3 h13 hs hx n0 n1 n2 n3 n4 n5 n6 n7
    simp [h1, h2, h3, h13, hs, hx, n0, n1, n2, n3, n4, n5, n6, n7] at this
  obtain ⟨x, rfl⟩ := hv
  exact ht

/-- Loading a document that fits: the value afterwards is the one the document decodes to. -/
theorem loadMsgPackH_spec (E : Env) {h : Heap} (O : Own h) {p : Ptr} (h5 : 5 ≤ p) {b : Bytes} {v w : Val} {F : List Ptr} (g : Good h (some p) w F)
    (ho : newValueFromMsgPack E b = .ok v) (ht : Takes w v) :
    ∃ h' v' F', loadMsgPackH E h p b = .ok () h' ∧ canon v' = v ∧ Good h' (some p) v' F' := by
  unfold newValueFromMsgPack MsgPack.parse at ho
  simp only [Res.bind_eq_ok, Res.ok.injEq] at ho
  obtain ⟨⟨v', t⟩, ho, rfl⟩ := ho
  have gc := g.clear O h5
  have l := parse2H_spec E b.length h5 b gc (by cases w <;> rfl) (fits_of ho ht.clear)
  rw [ho] at l
  unfold loadMsgPackH
  have hb : ¬b.length = 0 := by
    intro hb
    rw [List.length_eq_zero_iff.1 hb, parseValue] at ho
    cases ho
  simp only [if_neg hb]
  match h2 : parse2H E b.length p (Heap.clear h p) b, l with
  | .ok _ h', ⟨_, v2, R, hv, u, _⟩ => exact ⟨h', v2, R, rfl, hv, u.good⟩

end Dxs.Heap
