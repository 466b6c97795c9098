import Verif.Load.MsgPack
import Verif.Json.Model

/-!
# The JSON parser in memory (jsonparse.go:66-142, 291-342, 409-488)

After an error nothing is freed: the nodes made so far (and the cache of a call with `useCache`) are abandoned. Simplification: a member
is appended to its object when its value is complete; the code appends it when it starts to read the key (`getKv`, jsonparse.go:85), which
makes a difference only for an object that is abandoned after an error.
-/

namespace Dxs.Heap
open MsgPack (sliceFrom)
open Bson (at_)
open Json (skipWB headIs parseKey parseString strVal parseLit)

/-- Store a scalar: `c.getValue` with the type and the setter (jsonparse.go:456-460 strings and times, 608-615 numbers), or one of the
constants (469, 475, 481, 485, 599, 602), or nil (620). -/
def place (h : Heap) (c : Option CId) : Val → Option Ptr × Heap
  | .raw s => let x := newRaw h c s; (some x.1, x.2)
  | .dateTime t => let x := newTime h c t; (some x.1, x.2)
  | .int _ i => let x := newInt h c i; (some x.1, x.2)
  | .float f => let x := newFloat h c (lo32 f); (some x.1, x.2)
  | .tru => (some trueP, h)
  | .fls => (some falseP, h)
  | .null => (some nullP, h)
  | .nan => (some nanP, h)
  | .inf => (some infP, h)
  | _ => (none, h)

mutual
/-- `parseJsonValue`, jsonparse.go:434-488. -/
def jvalueH (E : Env) : Nat → Option CId → Heap → Bytes → Out (Option Ptr × Bytes)
  | 0, _, _, _ => .loop
  | fuel + 1, c, h, b =>
    if b.length = 0 then .err (.json .noObjBack 0 b) h
    else
      (Out.lift (at_ b 0) h).bind fun b0 h =>
      if b0 == 123 then (Out.lift (sliceFrom 1 b) h).bind fun b h => jobjH E fuel c h b
      else if b0 == 91 then (Out.lift (sliceFrom 1 b) h).bind fun b h => jarrH E fuel c h b
      else if b0 == 34 then
        (Out.lift (sliceFrom 1 b) h).bind fun b h =>
        (Out.lift (parseString b) h).bind fun st h => .ok ((place h c (strVal E st.1)).1, st.2) (place h c (strVal E st.1)).2
      else (Out.lift (parseLit E b0 b) h).bind fun vt h => .ok ((place h c vt.1).1, vt.2) (place h c vt.1).2
/-- `parseJsonObj`, jsonparse.go:66-143. -/
def jobjH (E : Env) : Nat → Option CId → Heap → Bytes → Out (Option Ptr × Bytes)
  | 0, _, _, _ => .loop
  | fuel + 1, c, h, oldb =>
    let b := (skipWB oldb).1
    if b.length = 0 then .err (.json .noObjBack (skipWB oldb).2 oldb) h
    else
      let r := (getValue h c .object).1
      let h := (getValue h c .object).2
      let c := childCache h c r
      ((Out.lift (at_ b 0) h).bind fun b0 h =>
        if b0 == 125 then (Out.lift (sliceFrom 1 b) h).bind fun t h => .ok t h
        else jobjLoopH E fuel c r h b).bind fun b h => .ok (some r, b) h
/-- The loop of `parseJsonObj`, jsonparse.go:84-143. -/
def jobjLoopH (E : Env) : Nat → Option CId → Ptr → Heap → Bytes → Out Bytes
  | 0, _, _, _, _ => .loop
  | fuel + 1, c, r, h, oldb =>
    let b := (skipWB oldb).1
    (Out.lift (headIs b 34) h).bind fun start h =>
    if !start then .err (.json .noKeyStart (skipWB oldb).2 oldb) h
    else
      (Out.lift (sliceFrom 1 b) h).bind fun b h =>
      (Out.lift (parseKey b) h).bind fun kb h =>
      let b := (skipWB kb.2).1
      (Out.lift (headIs b 58) h).bind fun colon h =>
      if !colon then .err (.json .noKVSplit (skipWB kb.2).2 kb.2) h
      else
        (Out.lift (sliceFrom 1 b) h).bind fun b h =>
        (jvalueH E fuel c h (skipWB b).1).bind fun vb h =>
        let b := (skipWB vb.2).1
        let h := h.upd r (fun n => { n with kvs := n.kvs ++ [(kb.1, vb.1)] })
        if b.length = 0 then .err (.json .noObjBack (skipWB vb.2).2 vb.2) h
        else
          (Out.lift (at_ b 0) h).bind fun x h =>
          if x == 44 then (Out.lift (sliceFrom 1 b) h).bind fun b h => jobjLoopH E fuel c r h b
          else if x == 125 then (Out.lift (sliceFrom 1 b) h).bind fun b h => .ok b h
          else .err (.json .noValueSplit (skipWB vb.2).2 vb.2) h
/-- `parseJsonArray`, jsonparse.go:291-342. -/
def jarrH (E : Env) : Nat → Option CId → Heap → Bytes → Out (Option Ptr × Bytes)
  | 0, _, _, _ => .loop
  | fuel + 1, c, h, oldb =>
    let b := (skipWB oldb).1
    if b.length = 0 then .err (.json .noArrBack (skipWB oldb).2 oldb) h
    else
      let r := (getValue h c .array).1
      let h := (getValue h c .array).2
      let c := childCache h c r
      ((Out.lift (at_ b 0) h).bind fun b0 h =>
        if b0 == 93 then (Out.lift (sliceFrom 1 b) h).bind fun t h => .ok t h
        else jarrLoopH E fuel c r h b).bind fun b h => .ok (some r, b) h
/-- The loop of `parseJsonArray`, jsonparse.go:309-342. -/
def jarrLoopH (E : Env) : Nat → Option CId → Ptr → Heap → Bytes → Out Bytes
  | 0, _, _, _, _ => .loop
  | fuel + 1, c, r, h, oldb =>
    (jvalueH E fuel c h (skipWB oldb).1).bind fun vb h =>
    let b := (skipWB vb.2).1
    let h := h.upd r (fun n => { n with arr := n.arr ++ [vb.1] })
    if b.length = 0 then .err (.json .noArrBack (skipWB vb.2).2 vb.2) h
    else
      (Out.lift (at_ b 0) h).bind fun x h =>
      if x == 44 then (Out.lift (sliceFrom 1 b) h).bind fun b h => jarrLoopH E fuel c r h b
      else if x == 93 then (Out.lift (sliceFrom 1 b) h).bind fun b h => .ok b h
      else .err (.json .noValueSplit (skipWB vb.2).2 vb.2) h
end

/-- `NewValueFromJson` after the cache is chosen, jsonparse.go:417-431. -/
def jrootH (E : Env) (c : Option CId) (h : Heap) (b : Bytes) : Out (Option Ptr) :=
  let b := (skipWB b).1
  (jvalueH E (3 * b.length + 3) c h b).bind fun vt h =>
  if (skipWB vt.2).1.length > 0 then .err (.json .invalidate (skipWB vt.2).2 vt.2) h
  else .ok vt.1 h

/-- `NewValueFromJson`, jsonparse.go:410-432. -/
def newValueFromJsonH (E : Env) (h : Heap) (b : Bytes) (useCache : Bool) (pick : Option Nat) : Out (Option Ptr) :=
  if useCache then jrootH E (some (getCache h pick).1) (getCache h pick).2 b else jrootH E none h b

/-! ## Correctness -/

theorem Sim.err {c : Option CId} {h : Heap} (I : Inv h) (e : Err) : Sim c h (.err e) (.err e h) := ⟨rfl, ErrOk.same I⟩

theorem LoopSim.err {c : Option CId} {h : Heap} {r : Ptr} {R : List Ptr} {w : Val} (g : Good h (some r) w R) (e : Err) : LoopSim c h r R (.err e) (.err e h) :=
  ⟨rfl, g.inv, Nat.le_refl _, fun _ _ => ⟨w, R, g.upd_refl, Run.refl g.inv⟩⟩

theorem LoopSim.done {c : Option CId} {h : Heap} {r : Ptr} {R : List Ptr} {w v : Val} (g : Good h (some r) w R) (hv : canon w = v) (b : Bytes) :
    LoopSim c h r R (.ok (v, b)) (.ok b h) := ⟨rfl, w, R, hv, g.upd_refl, Run.refl g.inv⟩

/-- The result is allocated, a loop fills it, an error abandons it. -/
theorem filledJ {c : Option CId} {h : Heap} (I : Inv h) (hc : ∀ d, c = some d → d < h.nextC) (t : VT) {x : Res (Val × Bytes)} {y : Option CId → Out Bytes}
    (hl : ∀ d, Ready (getValue h c t).2 d →
      LoopSim (some d) (getValue h c t).2 (getValue h c t).1 [(getValue h c t).1] x (y (some d))) :
    Sim c h x ((y (childCache (getValue h c t).2 c (getValue h c t).1)).bind fun b h' => .ok (some (getValue h c t).1, b) h') := by
  have A := getValue_spec I c t hc
  have s := Run.getValue I t hc
  obtain ⟨d, e, hd, hr⟩ : ∃ d, childCache (getValue h c t).2 c (getValue h c t).1 = some d ∧ (c = some d ∨ (c = none ∧ h.nextC ≤ d)) ∧ Ready (getValue h c t).2 d := by
    cases c with
    | none =>
      obtain ⟨d, h1, h2, h3⟩ := getValue_fresh I t
      exact ⟨d, h1, Or.inr ⟨rfl, h2⟩, h3⟩
    | some d => exact ⟨d, rfl, Or.inl rfl, getValue_ready I d t (hc d rfl)⟩
  rw [e]
  have l := hl d hr
  generalize y (some d) = z at l
  match x, z, l with
  | .ok (v, b), .ok b' h', ⟨e, v', R', hv, u, s'⟩ =>
    subst e
    exact ⟨rfl, v', R', hv, (Made.of A u).opt, s.child s' hd⟩
  | .err _, .err _ h', ⟨e, I', hn, hf⟩ =>
    refine ⟨e, I', Nat.le_trans s.step.nextC hn, fun O => ?_⟩
    obtain ⟨v', R', u, s'⟩ := hf (s.step.own O) ⟨d, rfl, hr⟩
    exact Or.inl ⟨(Made.of A u).frame, s.child s' hd⟩
  | .panic, .panic, _ => trivial
  | .loop, .loop, _ => trivial

/-- The scalars `place` stores. -/
def IsScalar : Val → Prop
  | .raw _ | .dateTime _ | .tru | .fls | .null | .nan | .inf | .nil => True
  | .int e _ => e = 0
  | .float f => f = setLo32 0 (lo32 f)
  | _ => False

theorem place_sim {c : Option CId} {h : Heap} (I : Inv h) (hc : ∀ d, c = some d → d < h.nextC) {v : Val} (hs : IsScalar v) (b : Bytes) :
    Sim c h (.ok (v, b)) (.ok ((place h c v).1, b) (place h c v).2) := by
  cases v with
  | raw s => exact Sim.made (newRaw_made I hc _) rfl
  | dateTime s => exact Sim.made (newTime_made I hc _) rfl
  | int e x => cases hs; exact Sim.made (newInt_made I hc _) rfl
  | float f =>
    obtain ⟨cell, e, m⟩ := newFloat_made I hc (lo32 f)
    refine Sim.made m ?_
    rw [canon, e]
    exact congrArg Val.float hs.symm
  | tru => exact Sim.ok rfl (made_const I (by decide) rfl) (Run.refl I)
  | fls => exact Sim.ok rfl (made_const I (by decide) rfl) (Run.refl I)
  | null => exact Sim.ok rfl (made_const I (by decide) rfl) (Run.refl I)
  | nan => exact Sim.ok rfl (made_const I (by decide) rfl) (Run.refl I)
  | inf => exact Sim.ok rfl (made_const I (by decide) rfl) (Run.refl I)
  | nil => exact Sim.ok rfl (made_nil I) (Run.refl I)
  | _ => exact hs.elim

theorem strVal_scalar (E : Env) (s : Bytes) : IsScalar (strVal E s) := by
  unfold strVal; split <;> trivial

theorem ofF32_scalar (x : F32) : IsScalar (Val.ofF32 x) := by
  show setLo32 0 x = setLo32 0 (lo32 (setLo32 0 x))
  rw [lo32_setLo32]

theorem numLoop_scalar (E : Env) (b : Bytes) : ∀ (r : Bytes) (i : Nat) (isf : Bool) {v : Val} {t : Bytes}, Json.numLoop E b i isf r = .ok (v, t) → IsScalar v := by
  intro r
  induction r with
  | nil => intro i isf v t e; cases e; trivial
  | cons ch r ih =>
    intro i isf v t e
    rw [Json.numLoop] at e
    split at e
    · exact ih _ _ e
    · obtain ⟨w, -, e⟩ := Res.bind_eq_ok.1 e
      split at e
      · obtain ⟨w, -, e⟩ := Res.bind_eq_ok.1 e
        split at e
        · obtain ⟨w, -, e⟩ := Res.bind_eq_ok.1 e
          split at e
          · obtain ⟨w, -, e⟩ := Res.bind_eq_ok.1 e
            cases e; trivial
          · split at e
            · obtain ⟨w, -, e⟩ := Res.bind_eq_ok.1 e
              cases e; trivial
            · cases e
        · cases e
      · obtain ⟨w, -, e⟩ := Res.bind_eq_ok.1 e
        obtain ⟨w, -, e⟩ := Res.bind_eq_ok.1 e
        generalize (if isf = true then isf else ch == 46) = f at e
        cases f with
        | true => cases e; exact ofF32_scalar _
        | false => cases e; rfl

theorem parseLit_scalar (E : Env) (b0 : UInt8) (b : Bytes) {v : Val} {t : Bytes} (e : parseLit E b0 b = .ok (v, t)) : IsScalar v := by
  unfold parseLit at e
  split at e
  · split at e
    · cases e
    · obtain ⟨w, -, e⟩ := Res.bind_eq_ok.1 e
      split at e
      · cases e
      · obtain ⟨w, -, e⟩ := Res.bind_eq_ok.1 e
        cases e; trivial
  · split at e
    · split at e
      · cases e
      · obtain ⟨w, -, e⟩ := Res.bind_eq_ok.1 e
        split at e
        · cases e
        · obtain ⟨w, -, e⟩ := Res.bind_eq_ok.1 e
          cases e; trivial
    · split at e
      · obtain ⟨w, -, e⟩ := Res.bind_eq_ok.1 e
        split at e
        · split at e
          · obtain ⟨w, -, e⟩ := Res.bind_eq_ok.1 e
            split at e
            · obtain ⟨w, -, e⟩ := Res.bind_eq_ok.1 e
              cases e; trivial
            · cases e
          · cases e
        · obtain ⟨w, -, e⟩ := Res.bind_eq_ok.1 e
          cases e; trivial
      · exact numLoop_scalar E b _ _ _ e

/-- All parsers of one level of fuel. -/
structure JSim (E : Env) (fuel : Nat) : Prop where
  value : ∀ c h b, Inv h → (∀ d, c = some d → d < h.nextC) → Sim c h (Json.parseValue E fuel b) (jvalueH E fuel c h b)
  obj : ∀ c h b, Inv h → (∀ d, c = some d → d < h.nextC) → Sim c h (Json.parseObj E fuel b) (jobjH E fuel c h b)
  arr : ∀ c h b, Inv h → (∀ d, c = some d → d < h.nextC) → Sim c h (Json.parseArr E fuel b) (jarrH E fuel c h b)
  objLoop : ∀ c r R h b acc, (∀ d, c = some d → d < h.nextC) → Good h (some r) (.obj false acc) R →
    LoopSim c h r R (Json.objLoop E fuel b (canonM acc)) (jobjLoopH E fuel c r h b)
  arrLoop : ∀ c r R h b acc, (∀ d, c = some d → d < h.nextC) → Good h (some r) (.arr acc) R →
    LoopSim c h r R (Json.arrLoop E fuel b (canonL acc)) (jarrLoopH E fuel c r h b)

theorem jsim (E : Env) : ∀ fuel, JSim E fuel := by
  intro fuel
  induction fuel with
  | zero =>
    refine ⟨?_, ?_, ?_, ?_, ?_⟩ <;> intros <;> simp [Json.parseValue, Json.parseObj, Json.parseArr, Json.objLoop, Json.arrLoop, jvalueH, jobjH, jarrH, jobjLoopH,
      jarrLoopH, Sim, LoopSim]
  | succ fuel ih =>
    refine ⟨?_, ?_, ?_, ?_, ?_⟩
    · intro c h b I hc
      rw [Json.parseValue, jvalueH]
      split
      · exact Sim.err I _
      refine Sim.read I (at_ b 0) ?_
      rintro b0 -
      split
      · refine Sim.read I (sliceFrom 1 b) ?_
        rintro b -
        exact ih.obj c h b I hc
      · split
        · refine Sim.read I (sliceFrom 1 b) ?_
          rintro b -
          exact ih.arr c h b I hc
        · split
          · refine Sim.read I (sliceFrom 1 b) ?_
            rintro b -
            refine Sim.read I (parseString b) ?_
            rintro ⟨s, t⟩ -
            exact place_sim I hc (strVal_scalar E s) t
          · have key : Sim c h (parseLit E b0 b >>= fun vt => .ok (vt.1, vt.2))
                ((Out.lift (parseLit E b0 b) h).bind fun vt h => .ok ((place h c vt.1).1, vt.2) (place h c vt.1).2) := by
              refine Sim.read I (parseLit E b0 b) ?_
              rintro ⟨v, t⟩ hl
              exact place_sim I hc (parseLit_scalar E b0 b hl) t
            have e : (parseLit E b0 b >>= fun vt => Res.ok (vt.1, vt.2)) = parseLit E b0 b := by
              cases parseLit E b0 b <;> rfl
            rw [e] at key
            exact key
    · intro c h oldb I hc
      rw [Json.parseObj, jobjH]
      dsimp only
      split
      · exact Sim.err I _
      · refine filledJ I hc .object (y := fun c' => (Out.lift (at_ (skipWB oldb).1 0) (getValue h c .object).2).bind fun b0 h' =>
          if b0 == 125 then (Out.lift (sliceFrom 1 (skipWB oldb).1) h').bind fun t h => .ok t h
          else jobjLoopH E fuel c' (getValue h c .object).1 h' (skipWB oldb).1) (fun d hr => ?_)
        have g := (getValue_spec I c .object hc).good
        refine LoopSim.read g _ ?_
        rintro b0 -
        split
        · refine LoopSim.read g _ ?_
          rintro t -
          exact LoopSim.done g rfl t
        · exact ih.objLoop (some d) _ _ _ _ [] (fun d' e => by cases e; exact hr.lt) g
    · intro c h oldb I hc
      rw [Json.parseArr, jarrH]
      dsimp only
      split
      · exact Sim.err I _
      · refine filledJ I hc .array (y := fun c' => (Out.lift (at_ (skipWB oldb).1 0) (getValue h c .array).2).bind fun b0 h' =>
          if b0 == 93 then (Out.lift (sliceFrom 1 (skipWB oldb).1) h').bind fun t h => .ok t h
          else jarrLoopH E fuel c' (getValue h c .array).1 h' (skipWB oldb).1) (fun d hr => ?_)
        have g := (getValue_spec I c .array hc).good
        refine LoopSim.read g _ ?_
        rintro b0 -
        split
        · refine LoopSim.read g _ ?_
          rintro t -
          exact LoopSim.done g rfl t
        · exact ih.arrLoop (some d) _ _ _ _ [] (fun d' e => by cases e; exact hr.lt) g
    · intro c r R h oldb acc hc g
      rw [Json.objLoop, jobjLoopH]
      dsimp only
      refine LoopSim.read g _ ?_
      rintro start -
      split
      · exact LoopSim.err g _
      refine LoopSim.read g _ ?_
      rintro b -
      refine LoopSim.read g _ ?_
      rintro ⟨k, oldb⟩ -
      dsimp only
      refine LoopSim.read g _ ?_
      rintro colon -
      split
      · exact LoopSim.err g _
      refine LoopSim.read g _ ?_
      rintro b -
      refine LoopSim.value g (ih.value c h _ g.inv hc) ?_
      intro v b a h' v' G hv m s
      dsimp only
      have u1 := g.upd_frame m.frame
      obtain ⟨R1, u2⟩ := obj_snoc u1.good m.good (fun x hx hR => g.live x hR (m.fresh x hx)) k
      have u3 := (UpdX.trans u1 u2).absorb m.fresh
      have h5 : 5 ≤ r := g.obj_inv.choose_spec.2.1
      have s3 := s.trans (Run.upd (c := c) s.step.inv r (fun m => { m with kvs := m.kvs ++ [(k, a)] }) (fun h => by omega) rfl)
      have hcan : canonM (acc ++ [(k, v')]) = canonM acc ++ [(k, v)] := by simp [canonM_append, canonM, hv]
      refine LoopSim.after u3 s3 ?_
      split
      · exact LoopSim.err u2.good _
      refine LoopSim.read u2.good _ ?_
      rintro x -
      split
      · refine LoopSim.read u2.good _ ?_
        rintro b -
        rw [← hcan]
        exact ih.objLoop c r R1 _ b _ (fun d hd => Nat.lt_of_lt_of_le (hc d hd) s3.step.nextC) u2.good
      · split
        · refine LoopSim.read u2.good _ ?_
          rintro b -
          exact LoopSim.done u2.good (by rw [canon, hcan]) b
        · exact LoopSim.err u2.good _
    · intro c r R h oldb acc hc g
      rw [Json.arrLoop, jarrLoopH]
      refine LoopSim.value g (ih.value c h _ g.inv hc) ?_
      intro v b a h' v' G hv m s
      dsimp only
      have u1 := g.upd_frame m.frame
      obtain ⟨R1, u2⟩ := arr_snoc u1.good m.good (fun x hx hR => g.live x hR (m.fresh x hx))
      have u3 := (UpdX.trans u1 u2).absorb m.fresh
      have h5 : 5 ≤ r := g.arr_inv.choose_spec.2.1
      have s3 := s.trans (Run.upd (c := c) s.step.inv r (fun m => { m with arr := m.arr ++ [a] }) (fun h => by omega) rfl)
      have hcan : canonL (acc ++ [v']) = canonL acc ++ [v] := by simp [canonL_append, canonL, hv]
      refine LoopSim.after u3 s3 ?_
      split
      · exact LoopSim.err u2.good _
      refine LoopSim.read u2.good _ ?_
      rintro x -
      split
      · refine LoopSim.read u2.good _ ?_
        rintro b -
        rw [← hcan]
        exact ih.arrLoop c r R1 _ b _ (fun d hd => Nat.lt_of_lt_of_le (hc d hd) s3.step.nextC) u2.good
      · split
        · refine LoopSim.read u2.good _ ?_
          rintro b -
          exact LoopSim.done u2.good (by rw [canon, hcan]) b
        · exact LoopSim.err u2.good _

end Dxs.Heap
