import Verif.Props.Load
import Verif.Props.LoadBson
import Verif.Props.Clone

/-!
# C104: what the decoders return has no nil parts
-/

namespace Dxs
open Heap (noNil noNilM noNilL)

theorem noNilM_all : ∀ {kvs : List (Bytes × Val)}, noNilM kvs = true ↔ ∀ kv ∈ kvs, noNil kv.2 = true
  | [] => by simp [noNilM]
  | (k, v) :: kvs => by simp [noNilM, noNilM_all (kvs := kvs)]

theorem noNilL_all : ∀ {xs : List Val}, noNilL xs = true ↔ ∀ x ∈ xs, noNil x = true
  | [] => by simp [noNilL]
  | v :: vs => by simp [noNilL, noNilL_all (xs := vs)]

theorem noNilM_snoc {kvs : List (Bytes × Val)} {k : Bytes} {v : Val} (h : noNilM kvs = true) (hv : noNil v = true) : noNilM (kvs ++ [(k, v)]) = true := by
  rw [noNilM_all] at *
  intro kv hkv
  rcases List.mem_append.1 hkv with h1 | h1
  · exact h kv h1
  · rw [List.mem_singleton.1 h1]; exact hv

theorem noNilL_snoc {xs : List Val} {v : Val} (h : noNilL xs = true) (hv : noNil v = true) : noNilL (xs ++ [v]) = true := by
  rw [noNilL_all] at *
  intro x hx
  rcases List.mem_append.1 hx with h1 | h1
  · exact h x h1
  · rw [List.mem_singleton.1 h1]; exact hv

theorem noNilM_unesc (E : Env) (ku : Bool) {kvs : List (Bytes × Val)} (h : noNilM kvs = true) : noNilM (unescKeys E ku kvs) = true := by
  rw [noNilM_all] at *
  unfold unescKeys
  split
  · exact h
  · intro kv hkv
    obtain ⟨x, hx, rfl⟩ := List.mem_map.1 hkv
    exact h x hx

theorem noNilM_index (E : Env) (ku : Bool) {kvs : List (Bytes × Val)} (h : noNilM kvs = true) (name : Bytes) :
    noNilM (indexByName E ku kvs name).2.2 = true := by
  unfold indexByName
  split
  · split
    · exact h
    · exact noNilM_unesc E ku h
  · exact noNilM_unesc E ku h

theorem noNilM_modify {kvs : List (Bytes × Val)} (h : noNilM kvs = true) (i : Nat) {v : Val} (hv : noNil v = true) :
    noNilM (kvs.modify i (fun kv => (kv.1, v))) = true := by
  induction kvs generalizing i with
  | nil => simp [noNilM]
  | cons kv kvs ih =>
    obtain ⟨k, w⟩ := kv
    simp only [noNilM, Bool.and_eq_true] at h
    cases i with
    | zero => simp [noNilM, hv, h.2]
    | succ i => simp [noNilM, h.1, ih h.2 i]

theorem noNilM_setKey (E : Env) (ku : Bool) {kvs : List (Bytes × Val)} (h : noNilM kvs = true) (name : Bytes) {v : Val} (hv : noNil v = true) :
    noNilM (setKeyValueObj E ku kvs name v).2 = true := by
  have h1 := noNilM_index E ku h name
  unfold setKeyValueObj
  generalize indexByName E ku kvs name = r at h1
  obtain ⟨i, ku', kvs'⟩ := r
  cases i with
  | some i => exact noNilM_modify h1 i hv
  | none => exact noNilM_snoc h1 hv

/-! ## JSON -/

namespace Json
open MsgPack (sliceFrom)
open Bson (at_)

/-- Nothing is left, or the value is there and has no nil parts. -/
def Whole (v : Val) (t : Bytes) : Prop := (v = .nil ∧ t = []) ∨ noNil v = true

theorem numLoop_whole (E : Env) (b : Bytes) : ∀ (r : Bytes) (i : Nat) (fl : Bool) {v : Val} {t : Bytes}, numLoop E b i fl r = .ok (v, t) → Whole v t := by
  intro r
  induction r with
  | nil => intro i fl v t e; cases e; exact Or.inl ⟨rfl, rfl⟩
  | cons ch r ih =>
    intro i isf v t e
    rw [Json.numLoop] at e
    split at e
    · exact ih _ _ e
    · obtain ⟨w, -, e⟩ := Res.bind_eq_ok.1 e
      split at e
      · obtain ⟨w, -, e⟩ := Res.bind_eq_ok.1 e
        split at e
        · obtain ⟨w, -, e⟩ := Res.bind_eq_ok.1 e
          split at e
          · obtain ⟨w, -, e⟩ := Res.bind_eq_ok.1 e
            cases e; exact Or.inr rfl
          · split at e
            · obtain ⟨w, -, e⟩ := Res.bind_eq_ok.1 e
              cases e; exact Or.inr rfl
            · cases e
        · cases e
      · obtain ⟨w, -, e⟩ := Res.bind_eq_ok.1 e
        obtain ⟨w, -, e⟩ := Res.bind_eq_ok.1 e
        generalize (if isf = true then isf else ch == 46) = f at e
        cases f with
        | true => cases e; exact Or.inr rfl
        | false => cases e; exact Or.inr rfl

theorem parseLit_whole (E : Env) (b0 : UInt8) (b : Bytes) {v : Val} {t : Bytes} (e : parseLit E b0 b = .ok (v, t)) : Whole v t := by
  by_cases hk : (b0 == 116 || b0 == 102 || b0 == 110) = true
  · rcases Heap.lit_kind e hk with rfl | rfl | rfl | rfl <;> exact Or.inr rfl
  · unfold parseLit at e
    simp only [Bool.or_eq_true, not_or] at hk
    simp only [hk, Bool.false_eq_true, if_false] at e
    exact numLoop_whole E b _ _ _ e

theorem Whole.of_more {v : Val} {t : Bytes} (w : Whole v t) (h : ¬(skipWB t).1.length = 0) : noNil v = true := by
  rcases w with ⟨-, rfl⟩ | w
  · exact absurd rfl h
  · exact w

theorem whole (E : Env) : ∀ fuel,
    (∀ b v t, parseValue E fuel b = .ok (v, t) → Whole v t) ∧
    (∀ b v t, parseObj E fuel b = .ok (v, t) → noNil v = true) ∧
    (∀ b kvs v t, noNilM kvs = true → objLoop E fuel b kvs = .ok (v, t) → noNil v = true) ∧
    (∀ b v t, parseArr E fuel b = .ok (v, t) → noNil v = true) ∧
    (∀ b xs v t, noNilL xs = true → arrLoop E fuel b xs = .ok (v, t) → noNil v = true)
  | 0 => by
    refine ⟨?_, ?_, ?_, ?_, ?_⟩ <;> intros <;> simp_all [parseValue, parseObj, objLoop, parseArr, arrLoop]
  | fuel + 1 => by
    obtain ⟨hv, ho, hol, ha, hal⟩ := whole E fuel
    refine ⟨?_, ?_, ?_, ?_, ?_⟩
    · intro b v t e
      rw [parseValue] at e
      split at e
      · cases e
      obtain ⟨b0, -, e⟩ := Res.bind_eq_ok.1 e
      split at e
      · obtain ⟨b1, -, e⟩ := Res.bind_eq_ok.1 e
        exact Or.inr (ho _ _ _ e)
      split at e
      · obtain ⟨b1, -, e⟩ := Res.bind_eq_ok.1 e
        exact Or.inr (ha _ _ _ e)
      split at e
      · obtain ⟨b1, -, e⟩ := Res.bind_eq_ok.1 e
        obtain ⟨⟨s, t'⟩, -, e⟩ := Res.bind_eq_ok.1 e
        cases e
        refine Or.inr ?_
        unfold strVal
        split <;> rfl
      · exact parseLit_whole E b0 b e
    · intro b v t e
      rw [parseObj] at e
      dsimp only at e
      split at e
      · cases e
      obtain ⟨b0, -, e⟩ := Res.bind_eq_ok.1 e
      split at e
      · obtain ⟨b1, -, e⟩ := Res.bind_eq_ok.1 e
        cases e; rfl
      · exact hol _ _ _ _ rfl e
    · intro b kvs v t hk e
      simp only [objLoop, Res.bind_eq_ok] at e
      obtain ⟨st, -, e⟩ := e
      cases st with
      | false => simp at e
      | true =>
        simp only [Bool.not_true, Bool.false_eq_true, if_false, Res.bind_eq_ok] at e
        obtain ⟨_, -, ⟨k, _⟩, -, cl, -, e⟩ := e
        cases cl with
        | false => simp at e
        | true =>
          simp only [Bool.not_true, Bool.false_eq_true, if_false, Res.bind_eq_ok] at e
          obtain ⟨_, -, ⟨x, o⟩, hx, e⟩ := e
          split at e
          · cases e
          · rename_i hl
            have hk2 := noNilM_snoc (k := k) hk ((hv _ _ _ hx).of_more hl)
            simp only [Res.bind_eq_ok] at e
            obtain ⟨_, -, e⟩ := e
            split at e
            · simp only [Res.bind_eq_ok] at e
              obtain ⟨_, -, e⟩ := e
              exact hol _ _ _ _ hk2 e
            · split at e
              · simp only [Res.bind_eq_ok, Res.ok.injEq, Prod.mk.injEq] at e
                obtain ⟨_, -, rfl, -⟩ := e
                exact hk2
              · cases e
    · intro b v t e
      rw [parseArr] at e
      dsimp only at e
      split at e
      · cases e
      obtain ⟨b0, -, e⟩ := Res.bind_eq_ok.1 e
      split at e
      · obtain ⟨b1, -, e⟩ := Res.bind_eq_ok.1 e
        cases e; rfl
      · exact hal _ _ _ _ rfl e
    · intro b xs v t hk e
      simp only [arrLoop, Res.bind_eq_ok] at e
      obtain ⟨⟨x, o⟩, hx, e⟩ := e
      split at e
      · cases e
      · rename_i hl
        have hk2 := noNilL_snoc hk ((hv _ _ _ hx).of_more hl)
        simp only [Res.bind_eq_ok] at e
        obtain ⟨_, -, e⟩ := e
        split at e
        · simp only [Res.bind_eq_ok] at e
          obtain ⟨_, -, e⟩ := e
          exact hal _ _ _ _ hk2 e
        · split at e
          · simp only [Res.bind_eq_ok, Res.ok.injEq, Prod.mk.injEq] at e
            obtain ⟨_, -, rfl, -⟩ := e
            exact hk2
          · cases e

/-- C104 for JSON, for all texts: nil itself (a number alone, C25) or a value without nil parts. -/
theorem C104_json (E : Env) (b : Bytes) (v : Val) (h : newValueFromJson E b = .ok v) : v = .nil ∨ noNil v = true := by
  unfold newValueFromJson at h
  simp only [Res.bind_eq_ok] at h
  obtain ⟨⟨v', t⟩, e, h⟩ := h
  dsimp only at h
  split at h
  · cases h
  · cases h
    rcases (whole E _).1 _ _ _ e with ⟨rfl, -⟩ | hw
    · exact Or.inl rfl
    · exact Or.inr hw

/-- `[1,{"a":2}]` -/
example : ∃ v, newValueFromJson envEx [91, 49, 44, 123, 34, 97, 34, 58, 50, 125, 93] = .ok v ∧ noNil v = true := ⟨_, rfl, rfl⟩

end Json

/-! ## BSON -/

namespace Bson

theorem ite_ok {α : Type} {P : α → Prop} {c : Prop} [Decidable c] {x y : Res α} (h1 : ∀ a, x = .ok a → P a) (h2 : ∀ a, y = .ok a → P a) :
    ∀ a, (if c then x else y) = .ok a → P a := by
  split <;> assumption

theorem simple_whole {E : Env} {hid b : Bytes} {ty : UInt8} : ∀ r : Nat × Val, parseSimple E hid ty b = .ok r → noNil r.2 = true := by
  have one : ∀ {α : Type} (x : Res α) (f : α → Nat × Val), (∀ a, noNil (f a).2 = true) → ∀ r, (x >>= fun a => .ok (f a)) = .ok r → noNil r.2 = true := by
    intro α x f hf r h
    obtain ⟨a, -, h⟩ := Res.bind_eq_ok.1 h
    cases h
    exact hf a
  unfold parseSimple
  refine ite_ok (one _ _ fun _ => rfl) (ite_ok ?_ (ite_ok ?_ (ite_ok (one _ _ fun _ => rfl) (ite_ok (one _ _ ?_) (ite_ok (one _ _ fun _ => rfl)
    (ite_ok (one _ _ fun _ => rfl) (ite_ok (one _ _ fun _ => rfl) (ite_ok (one _ _ fun _ => rfl) (ite_ok (one _ _ fun _ => rfl) ?_)))))))))
  · intro r h
    obtain ⟨n, -, h⟩ := Res.bind_eq_ok.1 h
    dsimp only at h
    split at h
    · cases h
    · obtain ⟨s, -, h⟩ := Res.bind_eq_ok.1 h
      cases h; rfl
  · intro r h
    unfold parseBinary at h
    obtain ⟨n, -, h⟩ := Res.bind_eq_ok.1 h
    obtain ⟨b1, -, h⟩ := Res.bind_eq_ok.1 h
    obtain ⟨sub, -, h⟩ := Res.bind_eq_ok.1 h
    split at h
    · obtain ⟨b2, -, h⟩ := Res.bind_eq_ok.1 h
      obtain ⟨m, -, h⟩ := Res.bind_eq_ok.1 h
      obtain ⟨b3, -, h⟩ := Res.bind_eq_ok.1 h
      split at h
      · cases h
      · obtain ⟨d, -, h⟩ := Res.bind_eq_ok.1 h
        cases h; rfl
    · obtain ⟨d, -, h⟩ := Res.bind_eq_ok.1 h
      cases h; rfl
  · intro x
    dsimp only
    split <;> rfl
  · intro r h; cases h; rfl

theorem blank_whole (tp : VT) : noNil (blank tp) = true := by cases tp <;> rfl

theorem settle_whole (tp : VT) {v : Val} (h : noNil v = true) : noNil (settle tp v) = true := by
  unfold settle
  split
  · exact h
  · exact blank_whole tp

theorem whole (E : Env) (hid : Bytes) : ∀ fuel,
    (∀ b ku kvs r, noNilM kvs = true → parseDoc E hid fuel b ku kvs = .ok r → noNil r.2 = true) ∧
    (∀ b d pi ku kvs v, noNilM kvs = true → docLoop E hid fuel b d pi ku kvs = .ok v → noNil v = true) ∧
    (∀ ty b cur r, noNil cur = true → parseElem E hid fuel ty b cur = .ok r → noNil r.2 = true) ∧
    (∀ b xs r, noNilL xs = true → parseArr E hid fuel b xs = .ok r → noNil r.2 = true) ∧
    (∀ b d pi xs v, noNilL xs = true → arrLoop E hid fuel b d pi xs = .ok v → noNil v = true)
  | 0 => by
    refine ⟨?_, ?_, ?_, ?_, ?_⟩ <;> intros <;> simp_all [parseDoc, docLoop, parseElem, parseArr, arrLoop]
  | fuel + 1 => by
    obtain ⟨hd, hdl, he, ha, hal⟩ := whole E hid fuel
    refine ⟨?_, ?_, ?_, ?_, ?_⟩
    · intro b ku kvs r hk e
      rw [parseDoc] at e
      split at e
      · cases e
      obtain ⟨n, -, e⟩ := Res.bind_eq_ok.1 e
      split at e
      · cases e
      obtain ⟨o, ho, e⟩ := Res.bind_eq_ok.1 e
      cases e
      exact hdl _ _ _ _ _ _ hk ho
    · intro b d pi ku kvs v hk e
      rw [docLoop] at e
      split at e
      · obtain ⟨ty, -, e⟩ := Res.bind_eq_ok.1 e
        dsimp only at e
        split at e
        · cases e
        rename_i k hidx
        have hi := noNilM_index E ku hk (List.take k (List.drop (pi + 1) b))
        generalize indexByName E ku kvs (List.take k (List.drop (pi + 1) b)) = ix at e hi
        obtain ⟨i, ku', kvs'⟩ := ix
        cases i with
        | some i =>
          dsimp only at e hi
          obtain ⟨⟨n, w⟩, hw, e⟩ := Res.bind_eq_ok.1 e
          have hc : noNil (settle (targetType ty) ((kvs'[i]?.map Prod.snd).getD .nil)) = true ∨ kvs'[i]? = none := by
            cases hq : kvs'[i]? with
            | none => exact Or.inr rfl
            | some kv => exact Or.inl (settle_whole _ (noNilM_all.1 hi kv (List.mem_of_getElem? hq)))
          have hkv : noNilM (kvs'.modify i (fun kv => (kv.1, w))) = true := by
            rcases hc with hc | hc
            · exact noNilM_modify hi i (he _ _ _ _ hc hw)
            · rw [List.modify_eq_self (by simpa using hc)]; exact hi
          dsimp only at e
          split at e
          · cases e; exact hkv
          · exact hdl _ _ _ _ _ _ hkv e
        | none =>
          dsimp only at e hi
          obtain ⟨⟨n, w⟩, hw, e⟩ := Res.bind_eq_ok.1 e
          have hkv := noNilM_snoc (k := List.take k (List.drop (pi + 1) b)) hi (he _ _ _ _ (blank_whole _) hw)
          dsimp only at e
          split at e
          · cases e; exact hkv
          · exact hdl _ _ _ _ _ _ hkv e
      · cases e; exact hk
    · intro ty b cur r hc e
      unfold parseElem at e
      split at e
      · split at e
        · exact ha _ _ _ hc e
        · cases e
      · split at e
        · split at e
          · exact hd _ _ _ _ hc e
          · cases e
        · exact simple_whole r e
    · intro b xs r hk e
      rw [parseArr] at e
      obtain ⟨n, -, e⟩ := Res.bind_eq_ok.1 e
      split at e
      · cases e
      obtain ⟨o, ho, e⟩ := Res.bind_eq_ok.1 e
      cases e
      exact hal _ _ _ _ _ hk ho
    · intro b d pi xs v hk e
      rw [arrLoop] at e
      split at e
      · obtain ⟨ty, -, e⟩ := Res.bind_eq_ok.1 e
        dsimp only at e
        split at e
        · cases e
        split at e
        · cases e
        split at e
        · rename_i hi
          obtain ⟨⟨n, w⟩, hw, e⟩ := Res.bind_eq_ok.1 e
          rw [List.getElem?_eq_getElem hi.2] at hw
          have hww := he _ _ _ _ (settle_whole _ (noNilL_all.1 hk _ (List.getElem_mem hi.2))) hw
          have hxs : ∀ i, noNilL (xs.set i w) = true := by
            intro i
            rw [noNilL_all] at hk ⊢
            intro x hx
            rcases List.mem_or_eq_of_mem_set hx with h1 | h1
            · exact hk x h1
            · rw [h1]; exact hww
          dsimp only at e
          split at e
          · cases e; exact hxs _
          · exact hal _ _ _ _ _ (hxs _) e
        · obtain ⟨⟨n, w⟩, hw, e⟩ := Res.bind_eq_ok.1 e
          have hxs := noNilL_snoc hk (he _ _ _ _ (blank_whole _) hw)
          dsimp only at e
          split at e
          · cases e; exact hxs
          · exact hal _ _ _ _ _ hxs e
      · cases e; exact hk

/-- C104 for BSON, for all inputs. -/
theorem C104_bson (E : Env) (hid b : Bytes) (v : Val) (h : newValueFromBson E hid b = .ok v) : noNil v = true := by
  unfold newValueFromBson at h
  obtain ⟨⟨n, o⟩, e, h⟩ := Res.bind_eq_ok.1 h
  cases h
  exact (whole E hid _).1 _ _ _ _ rfl e

/-- A document with an element of a type that is not supported: null. -/
example : ∃ v, newValueFromBson envEx [] [8, 0, 0, 0, 6, 97, 0, 0] = .ok v ∧ noNil v = true := ⟨_, rfl, rfl⟩

end Bson

/-! ## MessagePack -/

namespace MsgPack

/-- Every result of `p` on a suffix of `b` has no nil parts, and what is left is a suffix. -/
def Parts (p : Bytes → Res (Val × Bytes)) (b : Bytes) : Prop := ∀ b', b' <:+ b → ∀ v t, p b' = .ok (v, t) → noNil v = true ∧ t <:+ b'

theorem Parts.mono {p : Bytes → Res (Val × Bytes)} {b b' : Bytes} (h : Parts p b) (hb : b' <:+ b) : Parts p b' :=
  fun c hc => h c (hc.trans hb)

theorem elems_whole {p : Bytes → Res (Val × Bytes)} : ∀ (n : Nat) (b : Bytes) (vs : List Val) (t : Bytes), Parts p b →
    parseElems p n b = .ok (vs, t) → noNilL vs = true
  | 0, _, _, _, _, e => by cases e; rfl
  | n + 1, b, vs, t, hp, e => by
    rw [parseElems] at e
    obtain ⟨⟨v, b1⟩, h1, e⟩ := Res.bind_eq_ok.1 e
    obtain ⟨⟨ws, b2⟩, h2, e⟩ := Res.bind_eq_ok.1 e
    cases e
    obtain ⟨hv, hs⟩ := hp b (List.suffix_refl _) _ _ h1
    simp [noNilL, hv, elems_whole n b1 ws _ (hp.mono hs) h2]

theorem members_whole {E : Env} {p : Bytes → Res (Val × Bytes)} : ∀ (n : Nat) (ku : Bool) (kvs : List (Bytes × Val)) (b : Bytes) (v : Val) (t : Bytes), Parts p b →
    noNilM kvs = true → parseMembers E p n ku kvs b = .ok (v, t) → noNil v = true
  | 0, _, _, _, _, _, _, hk, e => by cases e; exact hk
  | n + 1, ku, kvs, b, v, t, hp, hk, e => by
    rw [parseMembers] at e
    obtain ⟨⟨c, b1⟩, h1, e⟩ := Res.bind_eq_ok.1 e
    obtain ⟨⟨k, b2⟩, h2, e⟩ := Res.bind_eq_ok.1 e
    obtain ⟨⟨w, b3⟩, h3, e⟩ := Res.bind_eq_ok.1 e
    have s1 : b1 <:+ b := by
      unfold readCode at h1; split at h1
      · cases h1; exact List.suffix_cons _ _
      · cases h1
    have s2 : b2 <:+ b1 := by have := good_str c b1; rw [h2] at this; exact this
    obtain ⟨hw, s3⟩ := hp b2 (s2.trans s1) _ _ h3
    exact members_whole n _ _ b3 v t (hp.mono (s3.trans (s2.trans s1))) (noNilM_setKey E ku hk k hw) e

theorem ite_ok' {α : Type} {P : α → Prop} {c : Prop} [Decidable c] {x y : Res α} (h1 : ∀ a, x = .ok a → P a) (h2 : ¬c → ∀ a, y = .ok a → P a) :
    ∀ a, (if c then x else y) = .ok a → P a := by
  split
  · exact h1
  · exact h2 ‹_›

/-- Every first byte but one has a case. -/
theorem codes (c : UInt8) (h : c ≠ 0xc1) : (isStr c || isArray c || isMap c || isFixedNum c || c == 0xcc || c == 0xd0 || c == 0xcd || c == 0xd1 || c == 0xce ||
    c == 0xd2 || (c == 0xd3 || c == 0xcf) || c == 0xca || c == 0xcb || c == 0xc3 || c == 0xc2 || c == 0xc0 || isBin c || isExt c) = true := by
  obtain ⟨c⟩ := c
  revert c
  decide +kernel

theorem whole (E : Env) : ∀ (f : Nat) (b : Bytes), b.length < f → 0xc1 ∉ b → ∀ r, parseValue E f b = .ok r → noNil r.1 = true
  | 0, _, h, _ => absurd h (by omega)
  | f + 1, [], _, _ => by intro r h; simp [parseValue, readCode] at h
  | f + 1, c :: b, h, hb => by
    have one : ∀ {α : Type} (x : Res (α × Bytes)) (g : α → Val), (∀ a, noNil (g a) = true) → ∀ r, (x >>= fun a => .ok (g a.1, a.2)) = .ok r → noNil r.1 = true := by
      intro α x g hg r h
      obtain ⟨a, -, h⟩ := Res.bind_eq_ok.1 h
      cases h
      exact hg _
    have zero : ∀ (v : Val) (t : Bytes), noNil v = true → ∀ r, (Res.ok (v, t)) = .ok r → noNil r.1 = true := by
      intro v t hv r h; cases h; exact hv
    have parts : Parts (parseValue E f) b := by
      intro b' hs v t e
      have hl := hs.length_le
      have hf : b'.length < f := by simp at h; omega
      refine ⟨whole E f b' hf (fun hm => hb (List.mem_cons_of_mem _ (hs.subset hm))) _ e, ?_⟩
      have := good_value E f b' hf
      rw [e] at this
      exact this
    unfold parseValue
    simp only [readCode, Res.bind_ok]
    refine ite_ok' (P := fun r : Val × Bytes => noNil r.1 = true) (one _ _ fun _ => rfl) (fun n1 => ite_ok' ?_ (fun n2 => ite_ok' ?_ (fun n3 => ite_ok' (zero _ _ rfl) (fun n4 => ?_))))
    · intro r e
      unfold parseArray at e
      obtain ⟨⟨n, b1⟩, h1, e⟩ := Res.bind_eq_ok.1 e
      obtain ⟨⟨vs, b2⟩, h2, e⟩ := Res.bind_eq_ok.1 e
      cases e
      have s1 : b1 <:+ b := by have := good_arrLen c b; rw [h1] at this; exact this
      exact elems_whole n b1 vs b2 (parts.mono s1) h2
    · intro r e
      unfold parseObject at e
      obtain ⟨⟨n, b1⟩, h1, e⟩ := Res.bind_eq_ok.1 e
      have s1 : b1 <:+ b := by have := good_mapLen c b; rw [h1] at this; exact this
      dsimp only at e
      split at e
      · cases e; rfl
      · split at e
        · cases e
        · split at e
          · cases e
          · exact members_whole n _ _ _ _ _ (parts.mono s1) rfl e
    refine ite_ok' (by intro r h; obtain ⟨a, -, h⟩ := Res.bind_eq_ok.1 h; cases h; rfl) (fun n5 => ?_)
    refine ite_ok' (by intro r h; obtain ⟨a, -, h⟩ := Res.bind_eq_ok.1 h; cases h; rfl) (fun n6 => ?_)
    refine ite_ok' (by intro r h; obtain ⟨a, -, h⟩ := Res.bind_eq_ok.1 h; cases h; rfl) (fun n7 => ?_)
    refine ite_ok' (by intro r h; obtain ⟨a, -, h⟩ := Res.bind_eq_ok.1 h; cases h; rfl) (fun n8 => ?_)
    refine ite_ok' (by intro r h; obtain ⟨a, -, h⟩ := Res.bind_eq_ok.1 h; cases h; rfl) (fun n9 => ?_)
    refine ite_ok' (by intro r h; obtain ⟨a, -, h⟩ := Res.bind_eq_ok.1 h; cases h; rfl) (fun n10 => ?_)
    refine ite_ok' (by intro r h; obtain ⟨a, -, h⟩ := Res.bind_eq_ok.1 h; cases h; rfl) (fun n11 => ?_)
    refine ite_ok' (by intro r h; obtain ⟨a, -, h⟩ := Res.bind_eq_ok.1 h; cases h; rfl) (fun n12 => ?_)
    refine ite_ok' (by intro r h; obtain ⟨a, -, h⟩ := Res.bind_eq_ok.1 h; cases h; rfl) (fun n13 => ?_)
    refine ite_ok' (zero _ _ rfl) (fun n14 => ?_)
    refine ite_ok' (zero _ _ rfl) (fun n15 => ?_)
    refine ite_ok' (zero _ _ rfl) (fun n16 => ?_)
    by_cases h1 : isBin c = true
    · rw [if_pos h1]
      intro r e
      unfold parseBin at e
      obtain ⟨⟨n, b1⟩, -, e⟩ := Res.bind_eq_ok.1 e
      dsimp only at e
      split at e
      · cases e; rfl
      · cases e
    rw [if_neg h1]
    by_cases h2 : isExt c = true
    · rw [if_pos h2]
      intro r e
      unfold parseExt at e
      obtain ⟨⟨n, b1⟩, -, e⟩ := Res.bind_eq_ok.1 e
      dsimp only at e
      split at e
      · cases e
      obtain ⟨tl, -, e⟩ := Res.bind_eq_ok.1 e
      split at e
      · cases e
      split at e
      · obtain ⟨x, -, e⟩ := Res.bind_eq_ok.1 e
        cases e; rfl
      · cases e; rfl
    rw [if_neg h2]
    have := codes c (by rintro rfl; exact hb (by simp))
    simp only [Bool.not_eq_true] at *
    simp only [*, Bool.or_self, Bool.false_eq_true] at this

/-- C104 for MessagePack, for all documents in which the byte 0xc1 (which is not used in MessagePack) does not occur. -/
theorem C104_msgpack_partial (E : Env) (b : Bytes) (hb : 0xc1 ∉ b) (v : Val) (h : newValueFromMsgPack E b = .ok v) : noNil v = true := by
  unfold newValueFromMsgPack parse at h
  obtain ⟨⟨n, o⟩, e, h⟩ := Res.bind_eq_ok.1 h
  cases h
  exact whole E _ b (by omega) hb _ e

/-- `[1, {"a": nil}]` -/
example : ∃ v, newValueFromMsgPack envEx [0x92, 1, 0x81, 0xa1, 97, 0xc0] = .ok v ∧ noNil v = true ∧ 0xc1 ∉ ([0x92, 1, 0x81, 0xa1, 97, 0xc0] : Bytes) :=
  ⟨_, rfl, rfl, by decide⟩

/-- C104, the negation in general: the byte 0xc1 makes a nil element or member, and the document is accepted. -/
theorem C104_reserved (E : Env) : newValueFromMsgPack E [0x91, 0xc1] = .ok (.arr [.nil]) ∧
    newValueFromMsgPack E [0x81, 0xa1, 97, 0xc1] = .ok (.obj Bool.true [([97], .nil)]) := by
  exact ⟨rfl, rfl⟩

end MsgPack

end Dxs
