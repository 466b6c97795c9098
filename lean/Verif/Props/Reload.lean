import Verif.Props.Fit
import Verif.Props.MsgPack
import Verif.Props.Json
import Verif.Props.Bson
import Verif.Props.TreeParse
import Verif.Props.Ask

/-! # C131: a value that loads what it wrote stays what it was

`v.LoadFromMsgPack(v.ToMsgPack())`, `v.LoadFromJson(v.ToJson())` and `v.LoadFromBson(v.ToBson())` (dxvalue.go:259-273, 309-317). A load empties the value first
(`Clear`, dxvalue.go:192-212) and then fills it in place, so what it does depends on what kind of value it finds (C129, C130). Here it finds the kind that has written the bytes. -/

namespace Dxs.Heap
open MsgPack (parseValue newValueFromMsgPack value2MsgPack readCode isStr isArray isMap isFixedNum isBin isExt isTime parseStr parseArray parseObject parseBin parseExt)

/-- `w` is what `v` was: a leaf is the very same value (of a Float only the 32 bits count), except that a time has gone through seconds and nanoseconds; an array or object is the same up to what
MessagePack does not keep of its parts (`MsgPack.Same`, in the file MsgPack/Spec.lean). -/
def Stays (E : Env) : Val → Val → Prop
  | .obj ku kvs, w => MsgPack.Same E (.obj ku kvs) w
  | .arr xs, w => MsgPack.Same E (.arr xs) w
  | .dateTime c, w => w = .dateTime (E.ofUnix (E.unixSec c) (E.unixNano c).val)
  | v, w => canon w = canon v

/-- The kinds that keep something MessagePack does not carry: a raw string stays raw, integers and binaries keep their extra byte. -/
inductive Keeps1 : Val → Val → Val → Prop
  | raw (a s : Bytes) : Keeps1 (.raw a) (.str s) (.raw s)
  | int (e : UInt8) (c d : BitVec 64) : Keeps1 (.int e c) (.int 0 d) (.int e d)
  | bin (e : UInt8) (d : Bytes) : Keeps1 (.bin e []) (.bin 0 d) (.bin e d)
  | exbin (e : UInt8) (d : Bytes) : Keeps1 (.exbin e []) (.exbin 0 d) (.exbin e d)

section
variable {E : Env} {fuel : Nat} {b t : Bytes} {v x w : Val}

theorem Keeps1.facts (h : Keeps1 v x w) :
    (∀ s, x = .str s → strInto s v = w) ∧ (∀ d, x = .int 0 d → intInto d v = w) ∧ (∀ d, x = .bin 0 d → binInto d v = w) ∧ (∀ d, x = .exbin 0 d → binInto d v = w) ∧
      (∀ xs, x ≠ .arr xs) ∧ (∀ ku kvs, x ≠ .obj ku kvs) ∧ (∀ c, x ≠ .float c) ∧ (∀ c, x ≠ .double c) ∧ (∀ c, x ≠ .dateTime c) ∧ x ≠ .tru ∧ x ≠ .fls ∧ x ≠ .null ∧ x ≠ .nil := by
  cases h <;> simp [strInto, intInto, binInto]

/-- The document that `parseMsgPackValue` reads as `x` is read into `v` as `w`. -/
theorem parse2T_keeps (ho : parseValue E (fuel + 1) b = .ok (x, t)) (h : Keeps1 v x w) : ∃ t', parse2T E fuel v b = .ok t' w := by
  obtain ⟨h1, h2, h3, h4, h5, h6, h7, h8, h9, h10, h11, h12, h13⟩ := h.facts
  rw [parseValue] at ho
  rw [Res.bind_eq_ok] at ho
  obtain ⟨⟨code, b'⟩, h0, ho⟩ := ho
  unfold parse2T
  rw [h0]
  simp only [Filled.lift, Filled.bind]
  dsimp only at ho
  have num : ∀ (r : Res (Nat × Bytes)) (f : Nat → BitVec 64), (r >>= fun ub => (.ok (.int 0 (f ub.1), ub.2) : Res (Val × Bytes))) = .ok (x, t) →
      ∃ t', (Filled.lift r v).bind (fun ub v => .ok ub.2 (intInto (f ub.1) v)) = .ok t' w := by
    intro r f h
    rw [Res.bind_eq_ok] at h
    obtain ⟨ub, rfl, h⟩ := h
    cases h
    exact ⟨_, by rw [← h2 _ rfl]; rfl⟩
  by_cases c1 : isStr code = true
  · rw [if_pos c1] at ho ⊢
    rw [Res.bind_eq_ok] at ho
    obtain ⟨⟨s, b2⟩, e, ho⟩ := ho
    cases ho
    rw [e]
    exact ⟨_, by rw [← h1 _ rfl]⟩
  rw [if_neg c1] at ho ⊢
  by_cases c2 : isArray code = true
  · rw [if_pos c2] at ho
    unfold parseArray at ho
    simp only [Res.bind_eq_ok, Res.ok.injEq, Prod.mk.injEq] at ho
    obtain ⟨_, _, _, _, rfl, _⟩ := ho
    exact absurd rfl (h5 _)
  rw [if_neg c2] at ho ⊢
  by_cases c3 : isMap code = true
  · rw [if_pos c3] at ho
    unfold parseObject at ho
    simp only [Res.bind_eq_ok] at ho
    obtain ⟨_, _, ho⟩ := ho
    split at ho
    · cases ho; exact absurd rfl (h6 _ _)
    · split at ho
      · cases ho
      · split at ho
        · cases ho
        · obtain ⟨_, _, rfl⟩ := parseMembers_obj E _ _ _ _ _ _ _ ho
          exact absurd rfl (h6 _ _)
  rw [if_neg c3] at ho ⊢
  by_cases c4 : isFixedNum code = true
  · rw [if_pos c4] at ho ⊢; cases ho; exact ⟨_, by rw [← h2 _ rfl]⟩
  rw [if_neg c4] at ho ⊢
  by_cases c5 : (code == 0xcc) = true
  · rw [if_pos c5] at ho ⊢; exact num _ _ ho
  rw [if_neg c5] at ho ⊢
  by_cases c6 : (code == 0xd0) = true
  · rw [if_pos c6] at ho ⊢; exact num _ _ ho
  rw [if_neg c6] at ho ⊢
  by_cases c7 : (code == 0xcd) = true
  · rw [if_pos c7] at ho ⊢; exact num _ _ ho
  rw [if_neg c7] at ho ⊢
  by_cases c8 : (code == 0xd1) = true
  · rw [if_pos c8] at ho ⊢; exact num _ _ ho
  rw [if_neg c8] at ho ⊢
  by_cases c9 : (code == 0xce) = true
  · rw [if_pos c9] at ho ⊢; exact num _ _ ho
  rw [if_neg c9] at ho ⊢
  by_cases c10 : (code == 0xd2) = true
  · rw [if_pos c10] at ho ⊢; exact num _ _ ho
  rw [if_neg c10] at ho ⊢
  by_cases c11 : (code == 0xd3 || code == 0xcf) = true
  · rw [if_pos c11] at ho ⊢; exact num _ _ ho
  rw [if_neg c11] at ho ⊢
  by_cases c12 : (code == 0xca) = true
  · rw [if_pos c12] at ho
    rw [Res.bind_eq_ok] at ho
    obtain ⟨ub, e, ho⟩ := ho
    cases ho
    exact absurd rfl (h7 _)
  rw [if_neg c12] at ho ⊢
  by_cases c13 : (code == 0xcb) = true
  · rw [if_pos c13] at ho
    rw [Res.bind_eq_ok] at ho
    obtain ⟨ub, e, ho⟩ := ho
    cases ho
    exact absurd rfl (h8 _)
  rw [if_neg c13] at ho ⊢
  by_cases c14 : (code == 0xc3) = true
  · rw [if_pos c14] at ho; cases ho; exact absurd rfl h10
  rw [if_neg c14] at ho ⊢
  by_cases c15 : (code == 0xc2) = true
  · rw [if_pos c15] at ho; cases ho; exact absurd rfl h11
  rw [if_neg c15] at ho ⊢
  by_cases c16 : (code == 0xc0) = true
  · rw [if_pos c16] at ho; cases ho; exact absurd rfl h12
  rw [if_neg c16] at ho ⊢
  by_cases c17 : isBin code = true
  · rw [if_pos c17] at ho ⊢
    unfold parseBin at ho
    unfold bin2T
    rw [Res.bind_eq_ok] at ho
    obtain ⟨nb, e, ho⟩ := ho
    rw [e]
    simp only [Filled.lift, Filled.bind]
    dsimp only at ho
    by_cases hl : nb.1 ≤ nb.2.length
    · rw [if_pos hl] at ho ⊢
      cases ho
      exact ⟨_, by rw [← h3 _ rfl]⟩
    · rw [if_neg hl] at ho; cases ho
  rw [if_neg c17] at ho ⊢
  by_cases c18 : isExt code = true
  · rw [if_pos c18] at ho ⊢
    unfold parseExt at ho
    unfold ext2T
    rw [Res.bind_eq_ok] at ho
    obtain ⟨⟨n, b2⟩, e, ho⟩ := ho
    rw [e]
    simp only [Filled.lift, Filled.bind]
    dsimp only at ho
    by_cases hl : b2.length < n
    · rw [if_pos hl] at ho; cases ho
    rw [if_neg hl] at ho ⊢
    rw [Res.bind_eq_ok] at ho
    obtain ⟨tail, e2, ho⟩ := ho
    rw [e2]
    rcases b2 with _ | ⟨ty, b2⟩
    · cases ho
    dsimp only at ho ⊢
    by_cases hT : isTime code ty = true
    · rw [if_pos hT] at ho
      rw [Res.bind_eq_ok] at ho
      obtain ⟨z, e3, ho⟩ := ho
      cases ho
      exact absurd rfl (h9 _)
    · rw [if_neg hT] at ho ⊢
      cases ho
      exact ⟨_, by rw [← h4 _ rfl]⟩
  rw [if_neg c18] at ho
  cases ho
  exact absurd rfl h13

theorem loadMsgPackT_keeps (ho : newValueFromMsgPack E b = .ok x) (h : Keeps1 (clearVal v) x w) : loadMsgPackT E v b = .ok () w := by
  unfold newValueFromMsgPack MsgPack.parse at ho
  rw [Res.bind_eq_ok] at ho
  obtain ⟨⟨x', t⟩, ho, e⟩ := ho
  cases e
  obtain ⟨t', e⟩ := parse2T_keeps ho h
  unfold loadMsgPackT
  have hb : ¬b.length = 0 := by
    intro hb
    rw [List.length_eq_zero_iff.1 hb, parseValue] at ho
    cases ho
  dsimp only
  rw [if_neg hb, e]
  rfl

mutual
/-- What MessagePack keeps does not see the upper half of a Float word. -/
theorem same_like : ∀ (v x w : Val), MsgPack.Same E v x → canon w = canon x → MsgPack.Same E v w
  | .nil, x, w, h, hw | .null, x, w, h, hw | .tru, x, w, h, hw | .fls, x, w, h, hw | .int _ _, x, w, h, hw | .double _, x, w, h, hw | .dateTime _, x, w, h, hw | .str _, x, w, h, hw
  | .raw _, x, w, h, hw | .bin _ _, x, w, h, hw | .exbin _ _, x, w, h, hw => by
    simp only [MsgPack.Same] at h ⊢
    subst h
    cases w <;> simp_all [canon]
  | .float c, x, w, h, hw => by
    simp only [MsgPack.Same] at h ⊢
    obtain ⟨c', rfl, hc⟩ := h
    cases w <;> simp [canon] at hw
    exact ⟨_, rfl, by rw [← hc]; simpa using congrArg lo32 hw⟩
  | .arr xs, x, w, h, hw => by
    simp only [MsgPack.Same] at h ⊢
    obtain ⟨ys, rfl, h⟩ := h
    cases w <;> simp [canon] at hw
    exact ⟨_, rfl, sameL_like xs ys _ h hw⟩
  | .obj ku kvs, x, w, h, hw => by
    simp only [MsgPack.Same] at h ⊢
    obtain ⟨ku', ys, rfl, h⟩ := h
    cases w <;> simp [canon] at hw
    exact ⟨_, _, rfl, sameM_like kvs ys _ h hw.2⟩
  | .nan, x, w, h, _ | .inf, x, w, h, _ => by simp [MsgPack.Same] at h
theorem sameL_like : ∀ (vs xs ws : List Val), MsgPack.SameL E vs xs → canonL ws = canonL xs → MsgPack.SameL E vs ws
  | [], xs, ws, h, hw => by
    simp only [MsgPack.SameL] at h ⊢
    subst h
    cases ws <;> simp_all [canonL]
  | v :: vs, xs, ws, h, hw => by
    simp only [MsgPack.SameL] at h ⊢
    obtain ⟨x, xs, rfl, h1, h2⟩ := h
    cases ws with
    | nil => simp [canonL] at hw
    | cons w ws =>
      simp only [canonL, List.cons.injEq] at hw
      exact ⟨_, _, rfl, same_like v x w h1 hw.1, sameL_like vs xs ws h2 hw.2⟩
theorem sameM_like : ∀ (vs xs ws : List (Bytes × Val)), MsgPack.SameM E vs xs → canonM ws = canonM xs → MsgPack.SameM E vs ws
  | [], xs, ws, h, hw => by
    simp only [MsgPack.SameM] at h ⊢
    subst h
    cases ws <;> simp_all [canonM]
  | (k, v) :: vs, xs, ws, h, hw => by
    simp only [MsgPack.SameM] at h ⊢
    obtain ⟨x, xs, rfl, h1, h2⟩ := h
    cases ws with
    | nil => simp [canonM] at hw
    | cons w ws =>
      obtain ⟨k', w⟩ := w
      simp only [canonM, List.cons.injEq, Prod.mk.injEq] at hw
      exact ⟨w, ws, by rw [hw.1.1], same_like v x w h1 hw.1.2, sameM_like vs xs ws h2 hw.2⟩
end

mutual
/-- The same for BSON, which writes no Float. -/
theorem bsame_like : ∀ (v x w : Val), Bson.Same E v x → canon w = canon x → Bson.Same E v w
  | .nil, x, w, h, hw | .null, x, w, h, hw | .tru, x, w, h, hw | .fls, x, w, h, hw | .int _ _, x, w, h, hw | .double _, x, w, h, hw | .dateTime _, x, w, h, hw | .str _, x, w, h, hw
  | .raw _, x, w, h, hw | .bin _ _, x, w, h, hw => by
    simp only [Bson.Same] at h ⊢
    subst h
    cases w <;> simp_all [canon]
  | .arr xs, x, w, h, hw => by
    simp only [Bson.Same] at h ⊢
    obtain ⟨ys, rfl, h⟩ := h
    cases w <;> simp [canon] at hw
    exact ⟨_, rfl, bsameL_like xs ys _ h hw⟩
  | .obj ku kvs, x, w, h, hw => by
    simp only [Bson.Same] at h ⊢
    obtain ⟨ys, rfl, h⟩ := h
    cases w <;> simp [canon] at hw
    exact ⟨_, by rw [hw.1], bsameM_like ku kvs ys _ h hw.2⟩
  | .float _, x, w, h, _ | .exbin _ _, x, w, h, _ | .nan, x, w, h, _ | .inf, x, w, h, _ => by simp [Bson.Same] at h
theorem bsameL_like : ∀ (vs xs ws : List Val), Bson.SameL E vs xs → canonL ws = canonL xs → Bson.SameL E vs ws
  | [], xs, ws, h, hw => by
    simp only [Bson.SameL] at h ⊢
    subst h
    cases ws <;> simp_all [canonL]
  | v :: vs, xs, ws, h, hw => by
    simp only [Bson.SameL] at h ⊢
    obtain ⟨x, xs, rfl, h1, h2⟩ := h
    cases ws with
    | nil => simp [canonL] at hw
    | cons w ws =>
      simp only [canonL, List.cons.injEq] at hw
      exact ⟨_, _, rfl, bsame_like v x w h1 hw.1, bsameL_like vs xs ws h2 hw.2⟩
theorem bsameM_like (ku : Bool) : ∀ (vs xs ws : List (Bytes × Val)), Bson.SameM E ku vs xs → canonM ws = canonM xs → Bson.SameM E ku vs ws
  | [], xs, ws, h, hw => by
    simp only [Bson.SameM] at h ⊢
    subst h
    cases ws <;> simp_all [canonM]
  | (k, v) :: vs, xs, ws, h, hw => by
    simp only [Bson.SameM] at h ⊢
    obtain ⟨x, xs, rfl, h1, h2⟩ := h
    cases ws with
    | nil => simp [canonM] at hw
    | cons w ws =>
      obtain ⟨k', w⟩ := w
      simp only [canonM, List.cons.injEq, Prod.mk.injEq] at hw
      exact ⟨w, ws, by rw [hw.1.1], bsame_like v x w h1 hw.1.2, bsameM_like ku vs xs ws h2 hw.2⟩
end

mutual
/-- The same for JSON. -/
theorem reads_like : ∀ (v x w : Val), Json.Spec.Reads E v x → canon w = canon x → Json.Spec.Reads E v w
  | .nil, x, w, h, hw | .null, x, w, h, hw | .tru, x, w, h, hw | .fls, x, w, h, hw => by
    simp only [Json.Spec.Reads] at h ⊢
    subst h
    cases w <;> simp_all [canon]
  | .int _ _, x, w, h, hw => by
    simp only [Json.Spec.Reads] at h ⊢
    obtain ⟨e, rfl⟩ := h
    cases w <;> simp_all [canon]
  | .str _, x, w, h, hw | .raw _, x, w, h, hw => by
    simp only [Json.Spec.Reads] at h ⊢
    obtain ⟨e, rfl, h⟩ := h
    cases w <;> simp_all [canon]
  | .float _, x, w, h, hw | .double _, x, w, h, hw | .dateTime _, x, w, h, hw => by
    simp only [Json.Spec.Reads] at h ⊢
    rcases h with ⟨c, rfl⟩ | h
    · cases w <;> simp_all [canon]
    · first
        | (obtain ⟨e, c, rfl⟩ := h; cases w <;> simp_all [canon]; done)
        | (obtain ⟨e, rfl⟩ := h; cases w <;> simp_all [canon]; done)
  | .arr xs, x, w, h, hw => by
    simp only [Json.Spec.Reads] at h ⊢
    obtain ⟨ys, rfl, h⟩ := h
    cases w <;> simp [canon] at hw
    exact ⟨_, rfl, readsL_like xs ys _ h hw⟩
  | .obj ku kvs, x, w, h, hw => by
    simp only [Json.Spec.Reads] at h ⊢
    obtain ⟨ku', ys, rfl, h⟩ := h
    cases w <;> simp [canon] at hw
    exact ⟨_, _, rfl, by rw [hw.1]; exact readsM_like ku ku' kvs ys _ h hw.2⟩
  | .bin _ _, x, w, h, _ | .exbin _ _, x, w, h, _ | .nan, x, w, h, _ | .inf, x, w, h, _ => by simp [Json.Spec.Reads] at h
theorem readsL_like : ∀ (vs xs ws : List Val), Json.Spec.ReadsL E vs xs → canonL ws = canonL xs → Json.Spec.ReadsL E vs ws
  | [], xs, ws, h, hw => by
    simp only [Json.Spec.ReadsL] at h ⊢
    subst h
    cases ws <;> simp_all [canonL]
  | v :: vs, xs, ws, h, hw => by
    simp only [Json.Spec.ReadsL] at h ⊢
    obtain ⟨x, xs, rfl, h1, h2⟩ := h
    cases ws with
    | nil => simp [canonL] at hw
    | cons w ws =>
      simp only [canonL, List.cons.injEq] at hw
      exact ⟨_, _, rfl, reads_like v x w h1 hw.1, readsL_like vs xs ws h2 hw.2⟩
theorem readsM_like (ku ku' : Bool) : ∀ (vs xs ws : List (Bytes × Val)), Json.Spec.ReadsM E ku ku' vs xs → canonM ws = canonM xs → Json.Spec.ReadsM E ku ku' vs ws
  | [], xs, ws, h, hw => by
    simp only [Json.Spec.ReadsM] at h ⊢
    subst h
    cases ws <;> simp_all [canonM]
  | (k, v) :: vs, xs, ws, h, hw => by
    simp only [Json.Spec.ReadsM] at h ⊢
    obtain ⟨k1, x, xs, rfl, hk, h1, h2⟩ := h
    cases ws with
    | nil => simp [canonM] at hw
    | cons w ws =>
      obtain ⟨k', w⟩ := w
      simp only [canonM, List.cons.injEq, Prod.mk.injEq] at hw
      exact ⟨k1, w, ws, by rw [hw.1.1], hk, reads_like v x w h1 hw.1.2, readsM_like ku ku' vs xs ws h2 hw.2⟩
end

/-- On trees: loading what was written, into the value or one that differs in the upper half of Float words. -/
theorem reload_tree {v0 : Val} (hs : MsgPack.Supported v) (hk : MsgPack.DistinctKeys E v) (hv : v ≠ .nil) (h0 : canon v0 = canon v) :
    ∃ w, loadMsgPackT E v0 (value2MsgPack E v) = .ok () w ∧ Stays E v w := by
  obtain ⟨x, hx, e⟩ := MsgPack.C03_roundtrip E v [] hs hk
  rw [List.append_nil] at e
  have ho : newValueFromMsgPack E (value2MsgPack E v) = .ok x := by
    unfold newValueFromMsgPack
    rw [e]; rfl
  have hv0 : v0 ≠ .nil := fun h => hv (canon_nil.1 (by rw [← h0, h]; rfl))
  have fits : TakesM E v0 x → ∃ w, loadMsgPackT E v0 (value2MsgPack E v) = .ok () w ∧ canon w = canon x := by
    intro ht
    obtain ⟨w, e, hw⟩ := loadMsgPackT_fits ho hv0
    exact ⟨w, e, hw.2 ht⟩
  cases v with
  | nil => exact absurd rfl hv
  | nan | inf => simp [MsgPack.Supported] at hs
  | raw s => cases hx; cases v0 <;> simp only [canon, reduceCtorEq] at h0; exact ⟨_, loadMsgPackT_keeps ho (.raw _ s), rfl⟩
  | int z c => cases hx; cases v0 <;> simp only [canon, reduceCtorEq] at h0; cases h0; exact ⟨_, loadMsgPackT_keeps ho (.int z _ c), rfl⟩
  | bin z d => cases hx; cases v0 <;> simp only [canon, reduceCtorEq] at h0; cases h0; exact ⟨_, loadMsgPackT_keeps ho (.bin z d), rfl⟩
  | exbin z d => cases hx; cases v0 <;> simp only [canon, reduceCtorEq] at h0; cases h0; exact ⟨_, loadMsgPackT_keeps ho (.exbin z d), rfl⟩
  | str s => cases hx; cases v0 <;> simp only [canon, reduceCtorEq] at h0; exact fits ⟨_, rfl⟩
  | null | tru | fls => cases hx; exact fits trivial
  | double c => cases hx; cases v0 <;> simp only [canon, reduceCtorEq] at h0; exact fits (by intro z; simp)
  | dateTime c =>
    cases hx
    cases v0 <;> simp only [canon, reduceCtorEq] at h0
    obtain ⟨w, e, hw⟩ := fits ⟨_, rfl⟩
    refine ⟨w, e, ?_⟩
    cases w <;> simp_all [canon, Stays]
  | float c =>
    obtain ⟨c', rfl, hc⟩ := hx
    obtain ⟨w, e, hw⟩ := fits trivial
    refine ⟨w, e, ?_⟩
    show canon w = canon _
    rw [hw]; simp only [canon, hc]
  | arr xs =>
    have hx' := hx
    obtain ⟨ys, rfl, h⟩ := hx
    cases v0 <;> simp only [canon, reduceCtorEq] at h0
    obtain ⟨w, e, hw⟩ := fits (fun _ => ⟨_, rfl⟩)
    exact ⟨w, e, same_like _ _ _ hx' hw⟩
  | obj ku kvs =>
    have hx' := hx
    obtain ⟨ku', ys, rfl, h⟩ := hx
    cases v0 <;> simp only [canon, reduceCtorEq] at h0
    obtain ⟨w, e, hw⟩ := fits (by
      simp only [TakesM]
      split
      · exact ⟨_, _, rfl⟩
      · rintro ⟨_, h⟩; cases h)
    exact ⟨w, e, same_like _ _ _ hx' hw⟩

theorem Stays.like {w' : Val} (h : Stays E v w) (hw : canon w' = canon w) : Stays E v w' := by
  cases v <;> simp only [Stays] at h ⊢ <;> first
    | exact same_like _ _ _ h hw
    | exact hw.trans h
    | (subst h; cases w' <;> simp_all [canon]; done)

end

/-! ## C131 -/

/-- **C131.** A value that loads its own MessagePack bytes stays what it was. -/
theorem C131_msgpack (E : Env) {h : Heap} {p : Ptr} {v : Val} (s : Stands h p v) (hs : MsgPack.Supported v) (hk : MsgPack.DistinctKeys E v) :
    ∃ h' v' F', loadMsgPackH E h p (value2MsgPack E v) = .ok () h' ∧ Rep h'.mem v' (some p) F' ∧ Stays E v v' := by
  obtain ⟨w, e, hw⟩ := reload_tree (E := E) hs hk s.ne_nil rfl
  obtain ⟨h', v', F', e', r, hv⟩ := (e ▸ C129_msgpack_tree E s _ : EndsLike p (.ok () w) _).done
  exact ⟨h', v', F', e', r, hw.like hv⟩

/-- C131 for JSON, for an array or object that JSON carries (C19). -/
theorem C131_json (E : Env) (L : Json.Spec.EscLaw E) (I : Json.Spec.IntLaw E) (a escDT : Bool) {h : Heap} {p : Ptr} {v : Val} (s : Stands h p v) (hp : Json.Spec.Plain E a escDT v)
    (hc : (∃ ku kvs, v = .obj ku kvs) ∨ ∃ xs, v = .arr xs) :
    ∃ b h' v' F', Json.value2Json E (Json.styleOf a) escDT v = .ok b ∧ loadJsonH E h p b = .ok () h' ∧ Rep h'.mem v' (some p) F' ∧ Json.Spec.Reads E v v' := by
  obtain ⟨b, x, eb, ho, hx⟩ := Json.C19_roundtrip_partial E L I a escDT v hp hc
  obtain ⟨h', v', F', e, r, hv⟩ := C130_json E s b ho
  refine ⟨b, h', v', F', eb, e, r, reads_like _ _ _ hx (hv.2 ?_)⟩
  rcases hc with ⟨ku, kvs, rfl⟩ | ⟨xs, rfl⟩
  · obtain ⟨_, _, rfl, -⟩ := hx; rfl
  · obtain ⟨_, rfl, -⟩ := hx; rfl

/-- C131 for BSON, for an object that BSON carries (C13). -/
theorem C131_bson (E : Env) (hE : Bson.IndexLaw E) (hid : Bytes) {h : Heap} {p : Ptr} {ku : Bool} {kvs : List (Bytes × Val)} (s : Stands h p (.obj ku kvs)) (hs : Bson.Survives E (.obj ku kvs))
    (hl : (Bson.Spec.document (Bson.dataM E ku kvs)).length < 2 ^ 31) :
    ∃ b h' v' F', Bson.value2Bson E (.obj ku kvs) [] = .ok b ∧ loadBsonH E hid h p b = .ok () h' ∧ Rep h'.mem v' (some p) F' ∧ Bson.Same E (.obj ku kvs) v' := by
  obtain ⟨b, x, eb, ho, hx⟩ := Bson.C13_roundtrip_partial E hE hid [] ku kvs hs hl
  rw [List.append_nil] at ho
  obtain ⟨h', v', F', e, r, hv⟩ := C130_bson E hid s b ho
  refine ⟨b, h', v', F', eb, e, r, bsame_like _ _ _ hx (hv.2 ?_)⟩
  obtain ⟨_, rfl, -⟩ := hx
  simp only [TakesM]
  split
  · exact ⟨_, _, rfl⟩
  · rintro ⟨_, h⟩; cases h

/-- C131 for a program, in any state: `b := x.ToMsgPack(nil); x.LoadFromMsgPack(b)`. Both statements succeed, `x` stays what it was, and so do all other variables.
Missing: the shared constants, and JSON and BSON as statements of a program. -/
theorem C131_program_partial {τ : Type} {s s1 : St} {T : Trees} {L : Nat → Option Live} (hT : Holds s T) (S : Sound s L) (E : Env) (C : Clock τ) (i : Nat) {o : List (Ans τ)}
    (h : (OCmd.ask i [] (.here .msgPack)).exec E C s = .ok (o, s1)) (hn : isConst (T i) = false) (hs : MsgPack.Supported (T i)) (hk : MsgPack.DistinctKeys E (T i)) :
    ∃ b s2 T2, o = [.text b] ∧ (PCmd.loadMsgPack i [] b).exec E s1 = .ok s2 ∧ Holds s2 T2 ∧ Stays E (T i) (T2 i) ∧ ∀ j, j ≠ i → T2 j = T j := by
  obtain ⟨T1, ⟨v, x, hv, hx, ho, rfl⟩, h1, L1, S1⟩ := hT.oexec S E C _ h
  have hvi : T i = v := by
    unfold Trees.walk at hv
    simp only [Val.sub] at hv
    split at hv <;> cases hv
    rename_i e; cases e; rfl
  have hT1 : T.put i (Val.subst (T i) [] ((Ask.here Get.msgPack).onTree E C v).2) = T := by
    rw [← hvi]; exact trees_put_self T i
  rw [hT1] at h1
  cases hx
  subst ho
  have hv0 : T i ≠ .nil := fun h => by rw [Trees.walk, h] at hv; cases hv
  obtain ⟨w, e, hw⟩ := reload_tree (E := E) hs hk hv0 (canon_idem _)
  have sure : (PCmd.loadMsgPack i [] (value2MsgPack E v)).sure E T := ⟨rfl, fun u hu => by rw [hv] at hu; cases hu; rw [← hvi]; exact hn⟩
  have d := PCmd.det h1 S1 E (.loadMsgPack i [] (value2MsgPack E v)) rfl sure
  have d2 : (PCmd.loadMsgPack i [] (value2MsgPack E v)).onTree E T = .ok (T.put i w) := by
    rw [hvi] at e
    simp only [PCmd.onTree, Trees.onNode, hv]
    show (loadMsgPackT E (canon v) (value2MsgPack E v)).left.bind _ = _
    rw [e]; rfl
  cases he : (PCmd.loadMsgPack i [] (value2MsgPack E v)).exec E s1 with
  | ok s2 =>
    rw [he] at d
    obtain ⟨T2, T3, h2, e3, hc⟩ := d
    rw [d2] at e3
    cases e3
    obtain ⟨T4, h4, hj⟩ := C115_others h1 S1 E _ he
    refine ⟨_, s2, T2, rfl, he, h2, hw.like ?_, fun j hji => ?_⟩
    · have := congrFun hc i
      simpa only [canonT, trees_put_same] using this
    · obtain ⟨F, r⟩ := h2 j
      obtain ⟨F', r'⟩ := h4 j
      rw [(rep_det r r').1, hj j (by simpa [PCmd.vars] using hji)]
  | panic => rw [he] at d; rw [d2] at d; cases d
  | err _ => rw [he] at d; exact d.elim
  | loop => rw [he] at d; rw [d2] at d; cases d

/-! ### Examples -/

/-- The program of `C131_program_partial`, with the object `{a: 7}`: it writes the same bytes before and after. -/
example : prints [.run (.newMsgPack 0 [0x81, 0xA1, 97, 7] false none), .ask 0 [] (.here .msgPack), .run (.loadMsgPack 0 [] [0x81, 0xA1, 97, 7]), .ask 0 [] (.here .msgPack)] =
    .ok [.text [0x81, 0xA1, 97, 7], .text [0x81, 0xA1, 97, 7]] := by decide +kernel

/-- The hypotheses of `C131_program_partial` hold for it. -/
example : isConst (.obj true [([97], .int 0 7)]) = false ∧ MsgPack.Supported (.obj true [([97], .int 0 7)]) ∧ MsgPack.DistinctKeys envEx (.obj true [([97], .int 0 7)]) := by
  refine ⟨rfl, ⟨by decide, by decide, trivial, trivial⟩, ?_, trivial, trivial⟩
  decide

/-- A raw string and an integer with an extra byte stay so, although MessagePack carries neither. -/
example : Stays envEx (.raw [97]) (.raw [97]) ∧ ¬ Stays envEx (.raw [97]) (.str [97]) ∧ ¬ Stays envEx (.int 17 5) (.int 0 5) ∧ MsgPack.Same envEx (.int 17 5) (.int 0 5) := by
  simp [Stays, canon, MsgPack.Same]
example : loadMsgPackT envEx (.int 17 5) (value2MsgPack envEx (.int 17 5)) = .ok () (.int 17 5) ∧ loadMsgPackT envEx (.raw [97]) (value2MsgPack envEx (.raw [97])) = .ok () (.raw [97]) := by
  constructor <;> rfl

/-- `C131_json` and `C131_bson` apply to an empty array in memory, and to the object `{a: 7}`. -/
example : Stands (oneValue .array) 5 (.arr []) ∧ Json.Spec.Plain envEx false false (.arr []) := ⟨stands_array, trivial⟩
example : Bson.Survives envEx (.obj true [([97], .int 0 7)]) ∧ (Bson.Spec.document (Bson.dataM envEx true [([97], .int 0 7)])).length < 2 ^ 31 := by
  refine ⟨⟨by simp, by decide, by decide, Or.inr (Or.inl (by decide)), trivial⟩, by decide +kernel⟩

end Dxs.Heap
