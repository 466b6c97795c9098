import Verif.Load.Into

/-!
# `LoadFromJson` (jsonparse.go:146-220, 345-395, 490-583, dxvalue.go:268-276)

Simplification: the member `getKv` appends (dxvalue.go:48-56) is empty. In the code it still holds the key and the value of an earlier
use if the object has lost members since it was last cleared (`Verif.Load.Prog` lets it be anything).
-/

namespace Dxs.Heap
open MsgPack (sliceFrom)
open Bson (at_)
open Json (skipWB headIs parseKey parseString strVal parseLit isNumCh noNumber foldIs upTo)

/-- The loop of `parseJsonNum2V`, jsonparse.go:547-583: `isfloat` is computed anew for each byte, so it is false at the byte that ends
the number. A number at the end of the input sets nothing. -/
def num2Loop (E : Env) (p : Ptr) (h : Heap) (b : Bytes) : Nat → Bytes → Out Bytes
  | _, [] => .ok [] h
  | i, ch :: r =>
    if isNumCh ch then num2Loop E p h b (i + 1) r
    else
      (Out.lift (noNumber b i) h).bind fun word h =>
      if word then
        (Out.lift (sliceFrom i b) h).bind fun t h =>
        if t.length ≥ 3 then
          (Out.lift (upTo 3 t) h).bind fun xs h =>
          if foldIs xs [105, 110, 102] then (Out.lift (sliceFrom (i + 3) b) h).bind fun tail h => .ok tail (reset h p .inf)
          else if foldIs xs [110, 97, 110] then (Out.lift (sliceFrom (i + 3) b) h).bind fun tail h => .ok tail (reset h p .nan)
          else .err .jsonInvalid h
        else .err .jsonInvalid h
      else
        (Out.lift (upTo i b) h).bind fun ns h =>
        (Out.lift (sliceFrom i b) h).bind fun tail h =>
        if ch == 46 then .ok tail (setFloat h p (E.f64to32 ((E.strToFloat ns).getD 0)))
        else .ok tail (setInt h p ((E.strToInt ns).getD 0))

/-- The type a literal resets the value to, jsonparse.go:523, 530, 537, 542. -/
def litType : Val → VT
  | .tru => .true
  | .fls => .false
  | .nan => .nan
  | _ => .null

/-- The fields of the member `getKv` returned are set. -/
def setLast (kvs : List (Bytes × Option Ptr)) (kv : Bytes × Option Ptr) : List (Bytes × Option Ptr) := kvs.dropLast ++ [kv]

/-- The loop of `parseJsonObj2V`, jsonparse.go:164-220: the member is appended first (165), then its key (175) and its value (193) are set;
after an error it stays as it is. `parseJsonKey` and `parseJsonValue` return no key and nil with an error (239, 434-488). -/
def jobj2LoopH (E : Env) (c : Option CId) (r : Ptr) : Nat → Heap → Bytes → Out Bytes
  | 0, _, _ => .loop
  | fuel + 1, h, oldb =>
    let h := h.upd r (fun n => { n with kvs := n.kvs ++ [([], none)] })
    let b := (skipWB oldb).1
    (Out.lift (headIs b 34) h).bind fun start h =>
    if !start then .err (.json .noKeyStart (skipWB oldb).2 oldb) h
    else
      (Out.lift (sliceFrom 1 b) h).bind fun b h =>
      (Out.lift (parseKey b) h).bind fun kb h =>
      let h := h.upd r (fun n => { n with kvs := setLast n.kvs (kb.1, none) })
      let b := (skipWB kb.2).1
      (Out.lift (headIs b 58) h).bind fun colon h =>
      if !colon then .err (.json .noKVSplit (skipWB kb.2).2 kb.2) h
      else
        (Out.lift (sliceFrom 1 b) h).bind fun b h =>
        (jvalueH E fuel c h (skipWB b).1).bind fun vb h =>
        let b := (skipWB vb.2).1
        let h := h.upd r (fun n => { n with kvs := setLast n.kvs (kb.1, vb.1) })
        if b.length = 0 then .err (.json .noObjBack (skipWB vb.2).2 vb.2) h
        else
          (Out.lift (at_ b 0) h).bind fun x h =>
          if x == 44 then (Out.lift (sliceFrom 1 b) h).bind fun b h => jobj2LoopH E c r fuel h b
          else if x == 125 then (Out.lift (sliceFrom 1 b) h).bind fun b h => .ok b h
          else .err (.json .noValueSplit (skipWB vb.2).2 vb.2) h

/-- `parseJson2Value`, jsonparse.go:490-545, with `parseJsonObj2V` (146-220) and `parseJsonArray2V` (345-395). The literals `true`,
`false`, `null` (and `nan`) are recognised as in `parseJsonValue`. -/
def json2H (E : Env) (fuel : Nat) (p : Ptr) (h : Heap) (b : Bytes) : Out Bytes :=
  let c := (h.mem p).owner
  if b.length = 0 then .err (.json .noObjBack 0 b) h
  else
    (Out.lift (at_ b 0) h).bind fun b0 h =>
    if b0 == 123 then
      (Out.lift (sliceFrom 1 b) h).bind fun oldb h =>
      let b := (skipWB oldb).1
      if b.length = 0 then .err (.json .noObjBack (skipWB oldb).2 oldb) h
      else
        (Out.lift (at_ b 0) h).bind fun b0 h =>
        if b0 == 125 then (Out.lift (sliceFrom 1 b) h).bind fun t h => .ok t h
        else jobj2LoopH E c p fuel h b
    else if b0 == 91 then
      (Out.lift (sliceFrom 1 b) h).bind fun oldb h =>
      let b := (skipWB oldb).1
      if b.length = 0 then .err (.json .noArrBack (skipWB oldb).2 oldb) h
      else
        (Out.lift (at_ b 0) h).bind fun b0 h =>
        if b0 == 93 then (Out.lift (sliceFrom 1 b) h).bind fun t h => .ok t h
        else jarrLoopH E fuel c p h b
    else if b0 == 34 then
      (Out.lift (sliceFrom 1 b) h).bind fun b h =>
      (Out.lift (parseString b) h).bind fun st h =>
      match E.jsonTime st.1 with
      | none => .ok st.2 ((reset h p .rawString).upd p (fun n => { n with str := st.1 }))
      | some d => .ok st.2 (setDouble (reset h p .dateTime) p d)
    else if b0 == 116 || b0 == 102 || b0 == 110 then (Out.lift (parseLit E b0 b) h).bind fun vt h => .ok vt.2 (reset h p (litType vt.1))
    else num2Loop E p h b 0 b

/-- `LoadFromJson`, dxvalue.go:268-276: what follows the document is not looked at. -/
def loadJsonH (E : Env) (h : Heap) (p : Ptr) (b : Bytes) : Out Unit :=
  let h := clear h p
  let b := (skipWB b).1
  if b.length = 0 then .ok () h
  else (json2H E (3 * b.length + 1) p h b).bind fun _ h => .ok () h

/-- The documents a value `w` can load, by what they decode to. -/
def TakesJ (w : Val) : Val → Prop
  | .nil | .float _ => False
  | .arr _ => w.vt = .array
  | .obj _ _ => w.vt = .object
  | .int _ _ => ∀ e x, w = .int e x → e = 0
  | _ => True

theorem TakesJ.clear {w v : Val} (t : TakesJ w v) : TakesJ (clearVal w) v := by
  cases w <;> cases v <;> simp_all [TakesJ, clearVal, Val.vt]

/-- What `num2Loop` writes. -/
def numWrite (h : Heap) (p : Ptr) : Val → Heap
  | .inf => reset h p .inf
  | .nan => reset h p .nan
  | .int _ x => setInt h p x
  | _ => h

theorem num2Loop_eq (E : Env) (p : Ptr) (h : Heap) (b : Bytes) : ∀ (r : Bytes) (i : Nat) (fl : Bool) (v : Val) (t : Bytes),
    Json.numLoop E b i fl r = .ok (v, t) → v ≠ .nil → v.vt ≠ .float →
    num2Loop E p h b i r = .ok t (numWrite h p v) ∧ (v = .inf ∨ v = .nan ∨ ∃ x, v = .int 0 x)
  | [], i, fl, v, t, he, hn, hf => by
    simp only [Json.numLoop, Res.ok.injEq, Prod.mk.injEq] at he
    exact absurd he.1.symm hn
  | ch :: r, i, fl, v, t, he, hn, hf => by
    rw [Json.numLoop] at he
    rw [num2Loop]
    by_cases hc : isNumCh ch = true
    · simp only [if_pos hc] at he ⊢
      exact num2Loop_eq E p h b r (i + 1) _ v t he hn hf
    · simp only [if_neg hc, Res.bind_eq_ok] at he ⊢
      obtain ⟨word, hw, he⟩ := he
      simp only [hw, Out.lift, Out.bind_ok]
      cases word with
      | true =>
        simp only [if_true, Res.bind_eq_ok] at he ⊢
        obtain ⟨x, hx, he⟩ := he
        simp only [hx, Out.bind_ok]
        by_cases hl : x.length ≥ 3
        · simp only [if_pos hl, Res.bind_eq_ok] at he ⊢
          obtain ⟨xs, hxs, he⟩ := he
          simp only [hxs, Out.bind_ok]
          by_cases f1 : foldIs xs [105, 110, 102] = true
          · simp only [if_pos f1, Res.bind_eq_ok, Res.ok.injEq, Prod.mk.injEq] at he ⊢
            obtain ⟨tl, htl, rfl, rfl⟩ := he
            simp [htl, numWrite]
          · simp only [if_neg f1] at he ⊢
            by_cases f2 : foldIs xs [110, 97, 110] = true
            · simp only [if_pos f2, Res.bind_eq_ok, Res.ok.injEq, Prod.mk.injEq] at he ⊢
              obtain ⟨tl, htl, rfl, rfl⟩ := he
              simp [htl, numWrite]
            · simp only [if_neg f2] at he; cases he
        · simp only [if_neg hl] at he; cases he
      | false =>
        simp only [Bool.false_eq_true, if_false, Res.bind_eq_ok] at he ⊢
        obtain ⟨ns, hns, tl, htl, he⟩ := he
        have h46 : (ch == 46) = false := by
          cases e : ch == 46 with
          | false => rfl
          | true => exact absurd (by simp [isNumCh, e]) hc
        simp only [hns, htl, Out.bind_ok, h46, Bool.false_eq_true, if_false]
        by_cases hq : (if fl = true then fl else ch == 46) = true
        · rw [if_pos hq] at he
          simp only [Res.ok.injEq, Prod.mk.injEq] at he
          rw [← he.1] at hf
          exact absurd rfl hf
        · rw [if_neg hq] at he
          simp only [Res.ok.injEq, Prod.mk.injEq] at he
          obtain ⟨rfl, rfl⟩ := he
          exact ⟨rfl, Or.inr (Or.inr ⟨_, rfl⟩)⟩

theorem objLoop_obj (E : Env) : ∀ (fuel : Nat) (b : Bytes) (kvs : List (Bytes × Val)) (v : Val) (t : Bytes),
    Json.objLoop E fuel b kvs = .ok (v, t) → ∃ kvs', v = .obj false kvs'
  | 0, _, _, _, _, h => by simp [Json.objLoop] at h
  | fuel + 1, b, kvs, v, t, h => by
    simp only [Json.objLoop, Res.bind_eq_ok] at h
    obtain ⟨st, -, h⟩ := h
    cases st with
    | false => simp at h
    | true =>
      simp only [Bool.not_true, Bool.false_eq_true, if_false, Res.bind_eq_ok] at h
      obtain ⟨_, -, _, -, cl, -, h⟩ := h
      cases cl with
      | false => simp at h
      | true =>
        simp only [Bool.not_true, Bool.false_eq_true, if_false, Res.bind_eq_ok] at h
        obtain ⟨_, -, _, -, h⟩ := h
        split at h
        · cases h
        · simp only [Res.bind_eq_ok] at h
          obtain ⟨_, -, h⟩ := h
          split at h
          · simp only [Res.bind_eq_ok] at h
            obtain ⟨_, -, h⟩ := h
            exact objLoop_obj E fuel _ _ _ _ h
          · split at h
            · simp only [Res.bind_eq_ok, Res.ok.injEq, Prod.mk.injEq] at h
              obtain ⟨_, -, h, -⟩ := h
              exact ⟨_, h.symm⟩
            · cases h

theorem arrLoop_arr (E : Env) : ∀ (fuel : Nat) (b : Bytes) (xs : List Val) (v : Val) (t : Bytes),
    Json.arrLoop E fuel b xs = .ok (v, t) → ∃ xs', v = .arr xs'
  | 0, _, _, _, _, h => by simp [Json.arrLoop] at h
  | fuel + 1, b, xs, v, t, h => by
    simp only [Json.arrLoop, Res.bind_eq_ok] at h
    obtain ⟨_, -, h⟩ := h
    split at h
    · cases h
    · simp only [Res.bind_eq_ok] at h
      obtain ⟨_, -, h⟩ := h
      split at h
      · simp only [Res.bind_eq_ok] at h
        obtain ⟨_, -, h⟩ := h
        exact arrLoop_arr E fuel _ _ _ _ h
      · split at h
        · simp only [Res.bind_eq_ok, Res.ok.injEq, Prod.mk.injEq] at h
          obtain ⟨_, -, h, -⟩ := h
          exact ⟨_, h.symm⟩
        · cases h

theorem lit_kind {E : Env} {b0 : UInt8} {b t : Bytes} {v : Val} (ho : parseLit E b0 b = .ok (v, t)) (h4 : (b0 == 116 || b0 == 102 || b0 == 110) = true) :
    v = .tru ∨ v = .fls ∨ v = .nan ∨ v = .null := by
  unfold parseLit at ho
  by_cases h1 : (b0 == 116) = true
  · simp only [if_pos h1] at ho
    split at ho
    · cases ho
    · simp only [Res.bind_eq_ok] at ho
      obtain ⟨_, -, ho⟩ := ho
      split at ho
      · cases ho
      · simp only [Res.bind_eq_ok, Res.ok.injEq, Prod.mk.injEq] at ho
        obtain ⟨_, -, h, -⟩ := ho
        exact Or.inl h.symm
  simp only [if_neg h1] at ho
  by_cases h2 : (b0 == 102) = true
  · simp only [if_pos h2] at ho
    split at ho
    · cases ho
    · simp only [Res.bind_eq_ok] at ho
      obtain ⟨_, -, ho⟩ := ho
      split at ho
      · cases ho
      · simp only [Res.bind_eq_ok, Res.ok.injEq, Prod.mk.injEq] at ho
        obtain ⟨_, -, h, -⟩ := ho
        exact Or.inr (Or.inl h.symm)
  simp only [if_neg h2] at ho
  have h3 : (b0 == 110) = true := by simpa [h1, h2] using h4
  simp only [if_pos h3, Res.bind_eq_ok] at ho
  obtain ⟨bad, -, ho⟩ := ho
  split at ho
  · split at ho
    · simp only [Res.bind_eq_ok] at ho
      obtain ⟨_, -, ho⟩ := ho
      split at ho
      · simp only [Res.bind_eq_ok, Res.ok.injEq, Prod.mk.injEq] at ho
        obtain ⟨_, -, h, -⟩ := ho
        exact Or.inr (Or.inr (Or.inl h.symm))
      · cases ho
    · cases ho
  · simp only [Res.bind_eq_ok, Res.ok.injEq, Prod.mk.injEq] at ho
    obtain ⟨_, -, h, -⟩ := ho
    exact Or.inr (Or.inr (Or.inr h.symm))

theorem LoopSim.get {c : Option CId} {h : Heap} {r : Ptr} {R : List Ptr} {v : Val} {t : Bytes} {y : Out Bytes} (l : LoopSim c h r R (.ok (v, t)) y) :
    ∃ h' v' R', y = .ok t h' ∧ canon v' = v ∧ Good h' (some r) v' R' := by
  match y, l with
  | .ok _ h', ⟨e, v', R', hv, u, _⟩ => subst e; exact ⟨h', v', R', rfl, hv, u.good⟩

theorem eraseIdx_last {α : Type} (xs : List α) : xs.eraseIdx (xs.length - 1) = xs.dropLast := by
  rw [List.eraseIdx_eq_take_drop_succ, List.dropLast_eq_take]
  cases xs <;> simp

/-- The last member is replaced. -/
theorem obj_last {h : Heap} {p : Ptr} {ku : Bool} {kvs : List (Bytes × Val)} {F : List Ptr} (g : Good h (some p) (.obj ku kvs) F)
    {b : Option Ptr} {w : Val} {G : List Ptr} (gw : Good h b w G) (hd : ∀ q ∈ G, q ∉ F) (k : Bytes) :
    ∃ F', UpdX G h F (h.upd p (fun n => { n with kvs := setLast n.kvs (k, b) })) (some p) (.obj ku (kvs.dropLast ++ [(k, w)])) F' := by
  obtain ⟨F0, rfl, h5, hdt, hk, hm, hp0, hn0, hav⟩ := g.obj_inv
  obtain ⟨hkeys, hl⟩ := repM_iff.1 hm
  have len : (h.mem p).kvs.length = kvs.length := by simpa using congrArg List.length hkeys
  obtain ⟨F1, hl1, hs1, hn1⟩ := repL_erase hl (i := kvs.length - 1)
  have e1 : kvs.eraseIdx (kvs.length - 1) = kvs.dropLast := eraseIdx_last kvs
  have e2 : (h.mem p).kvs.eraseIdx (kvs.length - 1) = (h.mem p).kvs.dropLast := by rw [← len]; exact eraseIdx_last _
  rw [← eraseIdx_map, ← eraseIdx_map, e1, e2] at hl1
  have hk1 : (h.mem p).kvs.dropLast.map Prod.fst = kvs.dropLast.map Prod.fst := by
    rw [List.map_dropLast, List.map_dropLast, hkeys]
  refine ⟨p :: (F1 ++ G), ?_⟩
  subst hk
  refine obj_write g (n := { h.mem p with kvs := setLast (h.mem p).kvs (k, b) }) hdt rfl (repM_iff.2 ⟨?_, ?_⟩) ?_ ?_ ?_
  · simp [setLast, hk1]
  · simpa [setLast] using repL_snoc hl1 gw.rep
  · rw [List.nodup_append]
    exact ⟨hn1 hn0, gw.nodup, fun a ha b hb e => hd b hb (by simp [← e, hs1 a ha])⟩
  · intro q hq
    rcases List.mem_append.1 hq with h1 | h1
    · exact Or.inl ⟨by simp [hs1 q h1], by rintro rfl; exact hp0 (hs1 _ h1)⟩
    · exact Or.inr h1
  · intro q hq
    exact ⟨by rintro rfl; exact hd q hq (by simp), gw.live q hq⟩

theorem Good.none {h : Heap} (I : Inv h) : Good h none .nil [] := ⟨I, ⟨rfl, rfl⟩, List.nodup_nil, by simp⟩

/-- The members are read as by `parseJsonObj`. -/
theorem jobj2_sim (E : Env) (c : Option CId) (r : Ptr) : ∀ (fuel : Nat) (R : List Ptr) (h : Heap) (b : Bytes) (acc : List (Bytes × Val)),
    (∀ d, c = some d → d < h.nextC) → Good h (some r) (.obj false acc) R →
    LoopSim c h r R (Json.objLoop E fuel b (canonM acc)) (jobj2LoopH E c r fuel h b) := by
  intro fuel
  induction fuel with
  | zero => intros; simp [Json.objLoop, jobj2LoopH, LoopSim]
  | succ fuel ih =>
    intro R h oldb acc hc g
    have h5 : 5 ≤ r := g.obj_inv.choose_spec.2.1
    rw [Json.objLoop, jobj2LoopH]
    dsimp only
    obtain ⟨R1, v1⟩ := obj_snoc g (Good.none g.inv) (by simp) []
    have t1 := Run.upd (c := c) g.inv r (fun m => { m with kvs := m.kvs ++ [([], none)] }) (fun h => by omega) rfl
    refine LoopSim.after v1 t1 ?_
    have hc1 : ∀ d, c = some d → d < (h.upd r (fun m => { m with kvs := m.kvs ++ [([], none)] })).nextC := fun d hd => Nat.lt_of_lt_of_le (hc d hd) t1.step.nextC
    have g1 := v1.good
    refine LoopSim.read g1 _ ?_
    rintro start -
    split
    · exact LoopSim.err g1 _
    refine LoopSim.read g1 _ ?_
    rintro b -
    refine LoopSim.read g1 _ ?_
    rintro ⟨k, oldb⟩ -
    dsimp only
    obtain ⟨R2, v2⟩ := obj_last g1 (Good.none g1.inv) (by simp) k
    have t2 := Run.upd (c := c) g1.inv r (fun m => { m with kvs := setLast m.kvs (k, none) }) (fun h => by omega) rfl
    refine LoopSim.after v2 t2 ?_
    have hc2 := fun d hd => Nat.lt_of_lt_of_le (hc1 d hd) t2.step.nextC
    have g2 := v2.good
    rw [List.dropLast_concat] at g2
    refine LoopSim.read g2 _ ?_
    rintro colon -
    split
    · exact LoopSim.err g2 _
    refine LoopSim.read g2 _ ?_
    rintro b -
    refine LoopSim.value g2 ((jsim E fuel).value c _ _ g2.inv hc2) ?_
    intro v b a h' v' G hv m s
    dsimp only
    have u1 := g2.upd_frame m.frame
    obtain ⟨R3, u2⟩ := obj_last u1.good m.good (fun x hx hR => g2.live x hR (m.fresh x hx)) k
    rw [List.dropLast_concat] at u2
    have u3 := (UpdX.trans u1 u2).absorb m.fresh
    have s3 := s.trans (Run.upd (c := c) s.step.inv r (fun m => { m with kvs := setLast m.kvs (k, a) }) (fun h => by omega) rfl)
    have hcan : canonM (acc ++ [(k, v')]) = canonM acc ++ [(k, v)] := by simp [canonM_append, canonM, hv]
    refine LoopSim.after u3 s3 ?_
    split
    · exact LoopSim.err u2.good _
    refine LoopSim.read u2.good _ ?_
    rintro x -
    split
    · refine LoopSim.read u2.good _ ?_
      rintro b -
      rw [← hcan]
      exact ih R3 _ b _ (fun d hd => Nat.lt_of_lt_of_le (hc2 d hd) s3.step.nextC) u2.good
    · split
      · refine LoopSim.read u2.good _ ?_
        rintro b -
        exact LoopSim.done u2.good (by rw [canon, hcan]) b
      · exact LoopSim.err u2.good _

theorem json2H_spec (E : Env) (fuel : Nat) {p : Ptr} (h5 : 5 ≤ p) {h : Heap} {b t : Bytes} {v w : Val} {R : List Ptr} (g : Good h (some p) w R)
    (hw : clearVal w = w) (ho : Json.parseValue E (fuel + 2) b = .ok (v, t)) (ht : TakesJ w v) :
    ∃ h' v' R', json2H E fuel p h b = .ok t h' ∧ canon v' = v ∧ Good h' (some p) v' R' := by
  have hc : ∀ d, (h.mem p).owner = some d → d < h.nextC := fun d => g.inv.owner p d
  rw [Json.parseValue] at ho
  unfold json2H
  obtain ⟨c, hco⟩ : ∃ c, (h.mem p).owner = c := ⟨_, rfl⟩
  rw [hco] at hc
  by_cases hb : b.length = 0
  · rw [if_pos hb] at ho; cases ho
  simp only [if_neg hb, Res.bind_eq_ok] at ho ⊢
  obtain ⟨b0, h0, ho⟩ := ho
  simp only [h0, Out.lift, Out.bind_ok, hco]
  by_cases h1 : (b0 == 123) = true
  · simp only [if_pos h1, Res.bind_eq_ok] at ho ⊢
    obtain ⟨b1, hs, ho⟩ := ho
    simp only [hs, Out.bind_ok]
    rw [Json.parseObj] at ho
    dsimp only at ho
    by_cases hl : (skipWB b1).1.length = 0
    · rw [if_pos hl] at ho; cases ho
    simp only [if_neg hl, Res.bind_eq_ok] at ho ⊢
    obtain ⟨x, hx, ho⟩ := ho
    simp only [hx, Out.bind_ok]
    have hwo : w.vt = .object → w = .obj false [] := by
      intro hv
      cases w <;> simp [Val.vt] at hv
      simp only [clearVal] at hw; exact hw.symm
    by_cases hx2 : (x == 125) = true
    · simp only [if_pos hx2, Res.bind_eq_ok, Res.ok.injEq, Prod.mk.injEq] at ho ⊢
      obtain ⟨tl, htl, rfl, rfl⟩ := ho
      simp only [htl, Out.bind_ok]
      have := hwo ht; subst this
      exact ⟨h, _, R, rfl, rfl, g⟩
    · simp only [if_neg hx2] at ho ⊢
      have hv : w.vt = .object := by
        obtain ⟨kvs, rfl⟩ := objLoop_obj E _ _ _ _ _ ho
        exact ht
      have := hwo hv; subst this
      have l := jobj2_sim E c p fuel R h (skipWB b1).1 [] hc g
      simp only [canonM] at l
      rw [ho] at l
      exact l.get
  simp only [if_neg h1] at ho ⊢
  by_cases h2 : (b0 == 91) = true
  · simp only [if_pos h2, Res.bind_eq_ok] at ho ⊢
    obtain ⟨b1, hs, ho⟩ := ho
    simp only [hs, Out.bind_ok]
    rw [Json.parseArr] at ho
    dsimp only at ho
    by_cases hl : (skipWB b1).1.length = 0
    · rw [if_pos hl] at ho; cases ho
    simp only [if_neg hl, Res.bind_eq_ok] at ho ⊢
    obtain ⟨x, hx, ho⟩ := ho
    simp only [hx, Out.bind_ok]
    have hwo : w.vt = .array → w = .arr [] := by
      intro hv
      cases w <;> simp [Val.vt] at hv
      simp only [clearVal] at hw; exact hw.symm
    by_cases hx2 : (x == 93) = true
    · simp only [if_pos hx2, Res.bind_eq_ok, Res.ok.injEq, Prod.mk.injEq] at ho ⊢
      obtain ⟨tl, htl, rfl, rfl⟩ := ho
      simp only [htl, Out.bind_ok]
      have := hwo ht; subst this
      exact ⟨h, _, R, rfl, rfl, g⟩
    · simp only [if_neg hx2] at ho ⊢
      have hv : w.vt = .array := by
        obtain ⟨xs, rfl⟩ := arrLoop_arr E _ _ _ _ _ ho
        exact ht
      have := hwo hv; subst this
      have l := (jsim E fuel).arrLoop c p R h (skipWB b1).1 [] hc g
      simp only [canonL] at l
      rw [ho] at l
      exact l.get
  simp only [if_neg h2] at ho ⊢
  by_cases h3 : (b0 == 34) = true
  · simp only [if_pos h3, Res.bind_eq_ok, Res.ok.injEq, Prod.mk.injEq] at ho ⊢
    obtain ⟨b1, hs, ⟨s, tl⟩, hp, hv, rfl⟩ := ho
    simp only [hs, hp, Out.bind_ok]
    dsimp only at hv
    unfold strVal at hv
    cases hj : E.jsonTime s with
    | none =>
      rw [hj] at hv
      subst hv
      have u := reset_upd g h5 .rawString
      have u2 := write_leaf (w := .raw s) (n := { (reset h p .rawString).mem p with str := s }) u.good rfl h5 rfl (by simp [leafOf, rep_dt u.good.rep, blankVal, Val.vt])
      exact ⟨_, _, _, rfl, rfl, u2.good⟩
    | some d =>
      rw [hj] at hv
      subst hv
      have u := reset_upd g h5 .dateTime
      have u2 := setDouble_upd u.good h5 d
      exact ⟨_, _, _, rfl, rfl, u2.good⟩
  simp only [if_neg h3] at ho ⊢
  by_cases h4 : (b0 == 116 || b0 == 102 || b0 == 110) = true
  · simp only [if_pos h4, ho, Out.bind_ok]
    have hl := lit_kind ho h4
    have u := reset_upd g h5 (litType v)
    rcases hl with rfl | rfl | rfl | rfl <;> exact ⟨_, _, _, rfl, rfl, u.good⟩
  simp only [if_neg h4]
  have hnum : Json.parseNum E b = .ok (v, t) := by
    unfold parseLit at ho
    simp only [Bool.or_eq_true, not_or] at h4
    simpa only [h4, Bool.false_eq_true, if_false] using ho
  have hn : v ≠ .nil := by rintro rfl; exact ht
  have hf : v.vt ≠ .float := by cases v <;> simp [Val.vt]; exact ht
  obtain ⟨e, hv⟩ := num2Loop_eq E p h b b 0 false v t hnum hn hf
  rw [e]
  rcases hv with rfl | rfl | ⟨x, rfl⟩
  · exact ⟨_, _, _, rfl, rfl, (reset_upd g h5 .inf).good⟩
  · exact ⟨_, _, _, rfl, rfl, (reset_upd g h5 .nan).good⟩
  · obtain ⟨e, u, h1, h2⟩ := setInt_upd g h5 x
    have he : e = 0 := by
      by_cases hv : w.vt = .int
      · cases w <;> simp [Val.vt] at hv
        rename_i e' y
        rw [h1 e' y rfl]; exact ht e' y rfl
      · exact h2 hv
    subst he
    exact ⟨_, _, _, rfl, rfl, u.good⟩

/-- Loading a document that fits: the value afterwards is the one the document decodes to. -/
theorem loadJsonH_spec (E : Env) {h : Heap} (O : Own h) {p : Ptr} (h5 : 5 ≤ p) {b : Bytes} {v w : Val} {F : List Ptr} (g : Good h (some p) w F)
    (ho : Json.newValueFromJson E b = .ok v) (ht : TakesJ w v) :
    ∃ h' v' F', loadJsonH E h p b = .ok () h' ∧ canon v' = v ∧ Good h' (some p) v' F' := by
  unfold Json.newValueFromJson at ho
  simp only [Res.bind_eq_ok] at ho
  obtain ⟨⟨v', t⟩, ho, hv⟩ := ho
  dsimp only at hv
  split at hv
  · cases hv
  cases hv
  have gc := g.clear O h5
  obtain ⟨h', v2, R, e, hv, g'⟩ := json2H_spec E (3 * (skipWB b).1.length + 1) h5 gc (by cases w <;> rfl) ho ht.clear
  unfold loadJsonH
  have hb : ¬(skipWB b).1.length = 0 := by
    intro hb
    rw [Json.parseValue, if_pos hb] at ho
    cases ho
  simp only [if_neg hb, e, Out.bind_ok]
  exact ⟨h', v2, R, rfl, hv, g'⟩

end Dxs.Heap
