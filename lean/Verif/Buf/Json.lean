import Verif.Buf.MsgPack
import Verif.Json.Robust

/-! The JSON parser with references makes the tree of the JSON parser on trees. -/

namespace Dxs.Buf

open MsgPack (sliceFrom)

/-- A property of the result, if there is one. -/
def OkP {α : Type} (P : α → Prop) (r : Res α) : Prop := ∀ a, r = .ok a → P a

theorem OkP.bind {α β : Type} {P : β → Prop} {r : Res α} {f : α → Res β} (h : ∀ a, OkP P (f a)) : OkP P (r >>= f) := by
  intro b hb
  cases r with
  | ok a => exact h a b hb
  | err e => cases hb
  | panic => cases hb
  | loop => cases hb

theorem OkP.ok {α : Type} {P : α → Prop} {a : α} (h : P a) : OkP P (.ok a) := by
  intro b hb; cases hb; exact h

theorem OkP.err {α : Type} {P : α → Prop} {e : Err} : OkP P (.err e) := by intro b hb; cases hb

theorem OkP.ite {α : Type} {P : α → Prop} {c : Prop} [Decidable c] {x y : Res α} (h1 : OkP P x) (h2 : OkP P y) : OkP P (if c then x else y) := by
  split
  · exact h1
  · exact h2

theorem num_noBytes (E : Env) (b : Bytes) : ∀ (r : Bytes) (i : Nat) (f : Bool), OkP (fun x : Val × Bytes => NoBytes x.1) (Json.numLoop E b i f r)
  | [], i, f => by rw [Json.numLoop]; exact OkP.ok trivial
  | c :: r, i, f => by
    rw [Json.numLoop]
    refine OkP.ite (num_noBytes E b r _ _) (OkP.bind fun _ => ?_)
    repeat' first
      | exact OkP.ok trivial
      | exact OkP.err
      | refine OkP.ite ?_ ?_
      | refine OkP.bind fun _ => ?_

theorem lit_noBytes (E : Env) (c : UInt8) (b : Bytes) : OkP (fun x : Val × Bytes => NoBytes x.1) (Json.parseLit E c b) := by
  unfold Json.parseLit Json.parseNum
  repeat' first
    | exact OkP.ok trivial
    | exact OkP.err
    | exact num_noBytes E _ _ _ _
    | refine OkP.ite ?_ ?_
    | refine OkP.bind fun _ => ?_

variable {E : Env} {m : Mem} {I : Input} {share : Bool}

/-- `b[1:]` -/
theorem slice1_ok {b : Bytes} (hb : b <:+ I.bytes) : RR (fun x y => x = y ∧ x <:+ I.bytes) (sliceFrom 1 b) (sliceFrom 1 b) := by
  refine RR.same ?_
  intro a ha
  unfold sliceFrom at ha
  split at ha
  · cases ha; exact ⟨rfl, (List.drop_suffix _ _).trans hb⟩
  · cases ha

theorem skip_suffix {b : Bytes} (hb : b <:+ I.bytes) : (Json.skipWB b).1 <:+ I.bytes := by
  rw [Json.skipWB_fst]
  exact (List.dropWhile_suffix _).trans hb

/-- A string at the beginning of `b`. -/
theorem piece_ok (hm : Holds m I) {b s t : Bytes} (hb : b <:+ I.bytes) (he : b = s ++ 34 :: t) :
    (mk share I b s.length).read m = s ∧ Fits share I (mk share I b s.length) ∧ t <:+ I.bytes := by
  refine ⟨?_, mk_fits share hb (by rw [he]; simp; omega), ?_⟩
  · rw [mk_read hm share hb, he]; simp
  · refine List.IsSuffix.trans ?_ hb
    rw [he]
    exact ⟨s ++ [34], by simp⟩

theorem string_ok {b : Bytes} (hb : b <:+ I.bytes) : RR (fun x y => x = y ∧ b = x.1 ++ 34 :: x.2) (Json.parseString b) (Json.parseString b) := by
  refine RR.same ?_
  rintro ⟨s, t⟩ ha
  rw [Json.parseString_eq] at ha
  unfold Json.strRes at ha
  cases hs : Json.scan b with
  | none => rw [hs] at ha; cases ha
  | some p =>
    rw [hs] at ha
    cases ha
    exact ⟨rfl, ((Json.scan_iff _ _ _).1 hs).2⟩

theorem key_ok {b : Bytes} (hb : b <:+ I.bytes) : RR (fun x y => x = y ∧ b = x.1 ++ 34 :: x.2) (Json.parseKey b) (Json.parseKey b) := by
  refine RR.same ?_
  rintro ⟨s, t⟩ ha
  by_cases h : 34 ∈ b
  · obtain ⟨k, r, rfl, hk⟩ := List.eq_append_cons_of_mem h
    rw [Json.parseKey_ok hk] at ha
    cases ha
    exact ⟨rfl, rfl⟩
  · rw [Json.parseKey_none h] at ha; cases ha

theorem readM_snoc (kvs : List (Ref × LVal)) (k : Ref) (v : LVal) : readM m (kvs ++ [(k, v)]) = readM m kvs ++ [(k.read m, v.read m)] := by simp [readM_eq]

theorem readL_snoc (xs : List LVal) (v : LVal) : readL m (xs ++ [v]) = readL m xs ++ [v.read m] := by simp [readL_eq]

theorem allM_snoc {P : Ref → Prop} {kvs : List (Ref × LVal)} {k : Ref} {v : LVal} (h : AllM P kvs) (hk : P k) (hv : v.All P) : AllM P (kvs ++ [(k, v)]) := by
  rw [allM_iff] at h ⊢
  intro kv hkv
  simp only [List.mem_append, List.mem_singleton] at hkv
  rcases hkv with hkv | rfl
  · exact h kv hkv
  · exact ⟨hk, hv⟩

theorem allL_snoc {P : Ref → Prop} {xs : List LVal} {v : LVal} (h : AllL P xs) (hv : v.All P) : AllL P (xs ++ [v]) := by
  rw [allL_iff] at h ⊢
  intro x hx
  simp only [List.mem_append, List.mem_singleton] at hx
  rcases hx with hx | rfl
  · exact h x hx
  · exact hv

theorem RR.rfl' {α : Type} {x : Res α} : RR (fun a b => a = b) x x := RR.same fun _ _ => rfl

theorem js_ok (hm : Holds m I) : ∀ fuel : Nat,
    (∀ b, b <:+ I.bytes → RR (VR m share I) (jsValue E share I fuel b) (Json.parseValue E fuel b)) ∧
    (∀ b, b <:+ I.bytes → RR (VR m share I) (jsObj E share I fuel b) (Json.parseObj E fuel b)) ∧
    (∀ b kvs, b <:+ I.bytes → AllM (Fits share I) kvs → RR (VR m share I) (jsObjLoop E share I fuel b kvs) (Json.objLoop E fuel b (readM m kvs))) ∧
    (∀ b, b <:+ I.bytes → RR (VR m share I) (jsArr E share I fuel b) (Json.parseArr E fuel b)) ∧
    (∀ b xs, b <:+ I.bytes → AllL (Fits share I) xs → RR (VR m share I) (jsArrLoop E share I fuel b xs) (Json.arrLoop E fuel b (readL m xs))) := by
  intro fuel
  induction fuel with
  | zero =>
    refine ⟨?_, ?_, ?_, ?_, ?_⟩ <;> intros <;>
      simp only [jsValue, jsObj, jsObjLoop, jsArr, jsArrLoop, Json.parseValue, Json.parseObj, Json.objLoop, Json.parseArr, Json.arrLoop] <;> trivial
  | succ fuel ih =>
    obtain ⟨ihV, ihO, ihOL, ihA, ihAL⟩ := ih
    refine ⟨?_, ?_, ?_, ?_, ?_⟩
    · intro b hb
      rw [jsValue, Json.parseValue]
      split
      · rfl
      rename_i hne
      refine RR.bind (RR.same (P := fun x y => x = y ∧ Bson.at_ b 0 = .ok x) fun a ha => ⟨rfl, ha⟩) ?_
      rintro c _ ⟨rfl, hc⟩
      split
      · refine RR.bind (slice1_ok hb) ?_
        rintro r _ ⟨rfl, hr⟩
        exact ihO r hr
      split
      · refine RR.bind (slice1_ok hb) ?_
        rintro r _ ⟨rfl, hr⟩
        exact ihA r hr
      split
      · refine RR.bind (slice1_ok hb) ?_
        rintro r _ ⟨rfl, hr⟩
        refine RR.bind (string_ok hr) ?_
        rintro ⟨s, t⟩ _ ⟨rfl, he⟩
        obtain ⟨h1, h2, h3⟩ := piece_ok (share := share) hm hr he
        refine ⟨?_, rfl, h3, ?_⟩
        · unfold jsStr Json.strVal
          cases E.jsonTime s <;> simp [LVal.read, h1]
        · unfold jsStr
          cases E.jsonTime s
          · exact h2
          · trivial
      · cases hl : Json.parseLit E c b with
        | ok x =>
          refine ⟨rfl, rfl, ?_, lit_noBytes E c b x hl⟩
          cases b with
          | nil => exact absurd rfl hne
          | cons c' r =>
            rw [Json.at_zero_cons] at hc
            cases hc
            have hg := Json.good_lit E c r
            rw [hl] at hg
            exact hg.1.trans hb
        | err e => rfl
        | panic => trivial
        | loop => trivial
    · intro b hb
      rw [jsObj, Json.parseObj]
      have hs := skip_suffix hb
      generalize Json.skipWB b = q at hs ⊢
      obtain ⟨r, n⟩ := q
      dsimp only at hs ⊢
      split
      · rfl
      refine RR.bind RR.rfl' ?_
      rintro c _ rfl
      split
      · refine RR.bind (slice1_ok hs) ?_
        rintro t _ ⟨rfl, ht⟩
        exact ⟨by simp [LVal.read, readM], rfl, ht, by simp [LVal.All, AllM]⟩
      · have := ihOL r [] hs trivial
        simpa [readM] using this
    · intro b kvs hb hk
      rw [jsObjLoop, Json.objLoop]
      have hs := skip_suffix hb
      generalize Json.skipWB b = q at hs ⊢
      obtain ⟨r, n⟩ := q
      dsimp only at hs ⊢
      refine RR.bind RR.rfl' ?_
      rintro c _ rfl
      split
      · rfl
      refine RR.bind (slice1_ok hs) ?_
      rintro kb _ ⟨rfl, hkb⟩
      refine RR.bind (key_ok hkb) ?_
      rintro ⟨k, t⟩ _ ⟨rfl, he⟩
      obtain ⟨h1, h2, h3⟩ := piece_ok (share := share) hm hkb he
      have hs := skip_suffix h3
      dsimp only at hs ⊢
      generalize Json.skipWB t = q at hs ⊢
      obtain ⟨r, n⟩ := q
      dsimp only at hs ⊢
      refine RR.bind RR.rfl' ?_
      rintro c _ rfl
      split
      · rfl
      refine RR.bind (slice1_ok hs) ?_
      rintro vb _ ⟨rfl, hvb⟩
      refine RR.bind (ihV _ (skip_suffix hvb)) ?_
      rintro ⟨v, t⟩ ⟨_, _⟩ ⟨rfl, rfl, ht, ha⟩
      have hs := skip_suffix ht
      dsimp only at hs ha ⊢
      generalize Json.skipWB t = q at hs ⊢
      obtain ⟨r, n⟩ := q
      dsimp only at hs ⊢
      split
      · rfl
      refine RR.bind RR.rfl' ?_
      rintro x _ rfl
      split
      · refine RR.bind (slice1_ok hs) ?_
        rintro t _ ⟨rfl, ht⟩
        have := ihOL t _ ht (allM_snoc hk h2 ha)
        rw [readM_snoc, h1] at this
        exact this
      split
      · refine RR.bind (slice1_ok hs) ?_
        rintro t _ ⟨rfl, ht⟩
        exact ⟨by simp [LVal.read, readM_snoc, h1], rfl, ht, by simpa [LVal.All] using allM_snoc hk h2 ha⟩
      · rfl
    · intro b hb
      rw [jsArr, Json.parseArr]
      have hs := skip_suffix hb
      generalize Json.skipWB b = q at hs ⊢
      obtain ⟨r, n⟩ := q
      dsimp only at hs ⊢
      split
      · rfl
      refine RR.bind RR.rfl' ?_
      rintro c _ rfl
      split
      · refine RR.bind (slice1_ok hs) ?_
        rintro t _ ⟨rfl, ht⟩
        exact ⟨by simp [LVal.read, readL], rfl, ht, by simp [LVal.All, AllL]⟩
      · have := ihAL r [] hs trivial
        simpa [readL] using this
    · intro b xs hb hx
      rw [jsArrLoop, Json.arrLoop]
      refine RR.bind (ihV _ (skip_suffix hb)) ?_
      rintro ⟨v, t⟩ ⟨_, _⟩ ⟨rfl, rfl, ht, ha⟩
      have hs := skip_suffix ht
      dsimp only at hs ha ⊢
      generalize Json.skipWB t = q at hs ⊢
      obtain ⟨r, n⟩ := q
      dsimp only at hs ⊢
      split
      · rfl
      refine RR.bind RR.rfl' ?_
      rintro x _ rfl
      split
      · refine RR.bind (slice1_ok hs) ?_
        rintro t _ ⟨rfl, ht⟩
        have := ihAL t _ ht (allL_snoc hx ha)
        rw [readL_snoc] at this
        exact this
      split
      · refine RR.bind (slice1_ok hs) ?_
        rintro t _ ⟨rfl, ht⟩
        exact ⟨by simp [LVal.read, readL_snoc], rfl, ht, by simpa [LVal.All] using allL_snoc hx ha⟩
      · rfl

end Dxs.Buf
