import Verif.Reflect.Reg
import Verif.Props.Struct

/-!
# C111: converters registered for Go types
-/

namespace Dxs.Reflect
open Dxs.Heap

/-! ## The specification -/

mutual
/-- A Go value of type `t` that was zero has been filled with the value `v`: a registered type is what its converter makes of the zero value and `v`; the other
types as for C80. -/
def FilledR (R : Reg) (E : Env) (parse : Bytes → Option F64) (ic : Bool) (t : Ty) (v : Val) (g : GV) : Prop :=
  match R t with
  | some c => c (zero t) v = .ok g
  | none =>
    match t with
    | .str => ∃ s, valString E v = .ok s ∧ g = .str s
    | .int w => g = .int w ((valInt E v).setWidth w)
    | .uint w => g = .uint w ((valInt E v).setWidth w)
    | .f32 => g = .f32 (E.f64to32 (valDouble E v))
    | .f64 => g = .f64 (valDouble E v)
    | .bool => g = .bool (valBool E v)
    | .time => g = .time (valTime E parse v)
    | .slice t => ∃ c ys, g = .slice c ys ∧ ys.length = (elementsOf v).length ∧
        ∀ (i : Nat) (x : Val) (y : GV), (elementsOf v)[i]? = some x → ys[i]? = some y → FilledR R E parse ic t x y
    | .struct fs => ∃ gs, g = .struct gs ∧ FilledRF R E parse ic fs (membersOf v) gs
    | .other => g = .other
/-- The fields: those a member fits are filled with it, the others are still zero. -/
def FilledRF (R : Reg) (E : Env) (parse : Bytes → Option F64) (ic : Bool) (fs : List (Bytes × Ty)) (ms : List (Bytes × Val)) (gs : List GV) : Prop :=
  match fs with
  | [] => gs = []
  | (n, t) :: fs => ∃ g r, gs = g :: r ∧ (∀ k w, (k, w) ∈ ms → Fits E ic k n = true → FilledR R E parse ic t w g) ∧
      ((∀ k w, (k, w) ∈ ms → Fits E ic k n = false) → g = zero t) ∧ FilledRF R E parse ic fs ms r
end

mutual
/-- No struct that is filled field by field has two fields whose names fit each other, and no slice that is filled element by element is one of times or of
a registered type. -/
def TyOkR (R : Reg) (E : Env) (ic : Bool) (t : Ty) : Prop :=
  R t ≠ none ∨
    match t with
    | .slice t => t ≠ .time ∧ R t = none ∧ TyOkR R E ic t
    | .struct fs => Assoc.Distinct (Fits E ic) fs ∧ TyOkRF R E ic fs
    | _ => True
/-- The fields. -/
def TyOkRF (R : Reg) (E : Env) (ic : Bool) (fs : List (Bytes × Ty)) : Prop :=
  match fs with
  | [] => True
  | (_, t) :: fs => TyOkR R E ic t ∧ TyOkRF R E ic fs
end

/-- The converters do not panic. -/
def Reg.Total (R : Reg) : Prop := ∀ t c, R t = some c → ∀ g v, ∃ g', c g v = .ok g'

/-! ## Proofs -/

variable {R : Reg} {E : Env} {parse : Bytes → Option F64} {ic : Bool}

/-- A registered type: its converter is called, with the field and the child. -/
theorem decValR_some {t : Ty} {c : Conv} (h : R t = some c) (g : GV) (v : Val) : decValR R E parse ic t g v = c g v := by
  cases v <;> simp only [decValR, h]

/-- What the loop leaves in field `i`. -/
theorem decMembersR_get (L : KeyLaws { E with ignoreCase := ic }) {fs : List (Bytes × Ty)} (hd : Assoc.Distinct (Fits E ic) fs) :
    ∀ (kvs : List (Bytes × Val)) (gs gs' : List GV), gs.length = fs.length → Assoc.Distinct (Fits E ic) kvs → decMembersR R E parse ic fs gs kvs = .ok gs' →
      gs'.length = fs.length ∧ ∀ (i : Nat) (f : Bytes × Ty) (g : GV), fs[i]? = some f → gs[i]? = some g →
        ((∀ k w, (k, w) ∈ kvs → Fits E ic k f.1 = false) → gs'[i]? = some g) ∧
        (∀ k w, (k, w) ∈ kvs → Fits E ic k f.1 = true → ∃ g', gs'[i]? = some g' ∧ decValR R E parse ic f.2 g w = .ok g') := by
  intro kvs
  induction kvs with
  | nil =>
    intro gs gs' hl _ e
    simp only [decMembersR, Res.ok.injEq] at e
    subst e
    exact ⟨hl, fun i f g _ hg => ⟨fun _ => hg, fun k w hm => by cases hm⟩⟩
  | cons kv kvs ih =>
    obtain ⟨k, v⟩ := kv
    intro gs gs' hl hk e
    simp only [Assoc.Distinct, List.map_cons, List.pairwise_cons] at hk
    simp only [decMembersR] at e
    cases hi : fieldOf E ic k fs with
    | none =>
      rw [hi] at e
      obtain ⟨h1, h2⟩ := ih gs gs' hl hk.2 e
      refine ⟨h1, fun i f g hf hg => ?_⟩
      have hno := fieldOf_none hi f (List.mem_of_getElem? hf)
      refine ⟨fun h => (h2 i f g hf hg).1 (fun k' w' hm => h k' w' (List.mem_cons_of_mem _ hm)), fun k' w' hm hfit => ?_⟩
      rcases List.mem_cons.1 hm with e | hm
      · cases e
        rw [hno] at hfit
        cases hfit
      · exact (h2 i f g hf hg).2 k' w' hm hfit
    | some j =>
      rw [hi] at e
      obtain ⟨fj, hfj, hfit⟩ := fieldOf_some hi
      have hjl : j < gs.length := by have := (List.getElem?_eq_some_iff.1 hfj).1; omega
      obtain ⟨gj, hgj⟩ : ∃ g, gs[j]? = some g := ⟨gs[j], List.getElem?_eq_getElem hjl⟩
      simp only [hfj, hgj] at e
      obtain ⟨g1, e1, e2⟩ := Res.bind_eq_ok.1 e
      obtain ⟨h1, h2⟩ := ih (gs.set j g1) gs' (by simpa using hl) hk.2 e2
      refine ⟨h1, fun i f g hf hg => ?_⟩
      by_cases hij : j = i
      · subst hij
        rw [hfj] at hf
        cases hf
        rw [hgj] at hg
        cases hg
        have hrest : ∀ k' w', (k', w') ∈ kvs → Fits E ic k' fj.1 = false := by
          intro k' w' hm
          have hne := hk.1 k' (List.mem_map_of_mem (f := Prod.fst) hm)
          cases hx : Fits E ic k' fj.1 with
          | false => rfl
          | true =>
            rw [fits_eq] at hne hx hfit
            rw [L.match_trans hfit (L.match_symm hx)] at hne
            cases hne
        have hset := (h2 j fj g1 hfj (by rw [List.getElem?_set_self hjl])).1 hrest
        refine ⟨fun h => ?_, fun k' w' hm hf' => ?_⟩
        · rw [h k v List.mem_cons_self] at hfit
          cases hfit
        · rcases List.mem_cons.1 hm with e | hm
          · cases e
            exact ⟨g1, hset, e1⟩
          · rw [hrest k' w' hm] at hf'
            cases hf'
      · have hg' : (gs.set j g1)[i]? = some g := by rw [List.getElem?_set_ne hij]; exact hg
        refine ⟨fun h => (h2 i f g hf hg').1 (fun k' w' hm => h k' w' (List.mem_cons_of_mem _ hm)), fun k' w' hm hf' => ?_⟩
        rcases List.mem_cons.1 hm with e | hm
        · cases e
          exact absurd (field_unique L hd hfj hf hfit hf') hij
        · exact (h2 i f g hf hg').2 k' w' hm hf'


theorem tyOkRF_get : ∀ {fs : List (Bytes × Ty)}, TyOkRF R E ic fs → ∀ {f}, f ∈ fs → TyOkR R E ic f.2
  | (_, _) :: fs, h, f, hf => by
    simp only [TyOkRF] at h
    rcases List.mem_cons.1 hf with rfl | hf
    · exact h.1
    · exact tyOkRF_get h.2 hf

theorem filledRF_of {ms : List (Bytes × Val)} : ∀ (fs : List (Bytes × Ty)) (gs : List GV), gs.length = fs.length →
    (∀ (i : Nat) (f : Bytes × Ty), fs[i]? = some f → ∃ g, gs[i]? = some g ∧ (∀ k w, (k, w) ∈ ms → Fits E ic k f.1 = true → FilledR R E parse ic f.2 w g) ∧
      ((∀ k w, (k, w) ∈ ms → Fits E ic k f.1 = false) → g = zero f.2)) → FilledRF R E parse ic fs ms gs
  | [], gs, hl, _ => by simp only [List.length_nil, List.length_eq_zero_iff] at hl; simp only [FilledRF]; exact hl
  | (n, t) :: fs, gs, hl, h => by
    obtain ⟨g, hg, h1, h2⟩ := h 0 (n, t) rfl
    cases gs with
    | nil => simp at hl
    | cons g0 r =>
      simp at hg
      subst hg
      simp only [FilledRF]
      refine ⟨g0, r, rfl, h1, h2, filledRF_of fs r (by simpa using hl) ?_⟩
      intro i f hf
      obtain ⟨g, hg, h3⟩ := h (i + 1) f (by simpa using hf)
      exact ⟨g, by simpa using hg, h3⟩

theorem filledRF_none : ∀ (fs : List (Bytes × Ty)), FilledRF R E parse ic fs [] (zeros fs)
  | [] => by simp only [FilledRF, zeros]
  | (n, t) :: fs => by
    simp only [FilledRF, zeros]
    exact ⟨zero t, zeros fs, rfl, (fun k w h => absurd h List.not_mem_nil), fun _ => rfl, filledRF_none fs⟩

/-- A leaf, or anything else that a type does not look into. -/
theorem scVal_filledR {t : Ty} {v : Val} {g : GV} (hr : R t = none) (hm : ∀ fs, t = .struct fs → membersOf v = []) (he : ∀ t', t = .slice t' → elementsOf v = [])
    (e : scVal E parse t (zero t) v = .ok g) : FilledR R E parse ic t v g := by
  unfold FilledR
  rw [hr]
  cases t with
  | str =>
    simp only [scVal] at e
    obtain ⟨s, e1, e2⟩ := Res.bind_eq_ok.1 e
    simp only [Res.ok.injEq] at e2
    exact ⟨s, e1, e2.symm⟩
  | slice t' =>
    simp only [scVal, Res.ok.injEq, zero] at e
    subst e
    exact ⟨0, [], rfl, by simp [he t' rfl], by intro i x y hx; simp [he t' rfl] at hx⟩
  | struct fs =>
    simp only [scVal, Res.ok.injEq, zero] at e
    subst e
    exact ⟨zeros fs, rfl, by rw [hm fs rfl]; exact filledRF_none fs⟩
  | _ => simp only [scVal, Res.ok.injEq, zero] at e; subst e; simp

theorem filledR_some {t : Ty} {c : Conv} {v : Val} {g : GV} (h : R t = some c) (e : decValR R E parse ic t (zero t) v = .ok g) : FilledR R E parse ic t v g := by
  unfold FilledR
  rw [h]
  rwa [decValR_some h] at e

mutual
theorem decValR_filled (L : KeyLaws { E with ignoreCase := ic }) : ∀ (v : Val) (t : Ty) {g : GV}, TyOkR R E ic t → ValOk E ic v →
    decValR R E parse ic t (zero t) v = .ok g → FilledR R E parse ic t v g
  | .nil, t, g, _, _, e => by
    cases hr : R t with
    | some c => exact filledR_some hr e
    | none =>
      simp only [decValR, hr] at e
      cases t with
      | other => simp only [Res.ok.injEq, zero] at e; subst e; unfold FilledR; simp [hr]
      | _ => simp at e
  | .arr xs, t, g, ht, hv, e => by
    cases hr : R t with
    | some c => exact filledR_some hr e
    | none =>
      simp only [decValR, hr] at e
      unfold TyOkR at ht
      simp only [hr, ne_eq, not_true, false_or] at ht
      cases t with
      | slice t' =>
        simp only [zero] at e
        unfold FilledR
        rw [hr]
        split at e
        · rename_i hx
          simp only [List.isEmpty_iff] at hx
          simp only [Res.ok.injEq] at e
          subst hx e
          exact ⟨0, [], rfl, rfl, by simp [elementsOf]⟩
        · dsimp only at ht
          have e' : (decItemsR R E parse ic t' xs >>= fun ys => Res.ok (GV.slice xs.length ys)) = .ok g := by
            rw [ht.2.1] at e
            cases t' <;> first | exact e | (simp at e; done)
          obtain ⟨ys, e1, e2⟩ := Res.bind_eq_ok.1 e'
          simp only [Res.ok.injEq] at e2
          subst e2
          obtain ⟨h1, h2⟩ := decItemsR_filled L xs t' ht.2.2 hv e1
          exact ⟨_, ys, rfl, h1, h2⟩
      | struct fs =>
        simp only [Res.ok.injEq, zero] at e
        subst e
        unfold FilledR
        rw [hr]
        exact ⟨zeros fs, rfl, filledRF_none fs⟩
      | _ => exact scVal_filledR hr (by simp) (by simp) e
  | .obj ku kvs, t, g, ht, hv, e => by
    cases hr : R t with
    | some c => exact filledR_some hr e
    | none =>
      simp only [decValR, hr] at e
      unfold TyOkR at ht
      simp only [hr, ne_eq, not_true, false_or] at ht
      cases t with
      | struct fs =>
        simp only [zero] at e
        obtain ⟨gs, e1, e2⟩ := Res.bind_eq_ok.1 e
        simp only [Res.ok.injEq] at e2
        subst e2
        obtain ⟨h1, h2⟩ := decMembersR_get L ht.1 kvs (zeros fs) gs (zeros_length fs) hv.1 e1
        have hmem := decMembersR_filled L kvs hv.2
        unfold FilledR
        rw [hr]
        refine ⟨gs, rfl, filledRF_of fs gs h1 ?_⟩
        intro i f hf
        obtain ⟨a, b⟩ := h2 i f _ hf (zeros_get fs i f hf)
        have hl : i < gs.length := by have := (List.getElem?_eq_some_iff.1 hf).1; omega
        refine ⟨gs[i], List.getElem?_eq_getElem hl, ?_, ?_⟩
        · intro k w hm hfit
          obtain ⟨g', hg', ed⟩ := b k w hm hfit
          rw [List.getElem?_eq_getElem hl] at hg'
          cases hg'
          exact hmem k w hm f.2 (tyOkRF_get ht.2 (List.mem_of_getElem? hf)) ed
        · intro hno
          have := a hno
          rw [List.getElem?_eq_getElem hl] at this
          simpa using this
      | _ => exact scVal_filledR hr (by simp) (by simp [elementsOf]) e
  | .str _, t, g, _, _, e | .raw _, t, g, _, _, e | .int _ _, t, g, _, _, e | .float _, t, g, _, _, e | .double _, t, g, _, _, e | .dateTime _, t, g, _, _, e
  | .bin _ _, t, g, _, _, e | .exbin _ _, t, g, _, _, e | .null, t, g, _, _, e | .tru, t, g, _, _, e | .fls, t, g, _, _, e | .nan, t, g, _, _, e | .inf, t, g, _, _, e => by
    cases hr : R t with
    | some c => exact filledR_some hr e
    | none =>
      simp only [decValR, hr] at e
      exact scVal_filledR hr (by simp [membersOf]) (by simp [elementsOf]) e
theorem decItemsR_filled (L : KeyLaws { E with ignoreCase := ic }) : ∀ (xs : List Val) (t : Ty) {ys : List GV}, TyOkR R E ic t → ValOkL E ic xs →
    decItemsR R E parse ic t xs = .ok ys → ys.length = xs.length ∧ ∀ (i : Nat) (x : Val) (y : GV), xs[i]? = some x → ys[i]? = some y → FilledR R E parse ic t x y
  | [], t, ys, _, _, e => by simp only [decItemsR, Res.ok.injEq] at e; subst e; simp
  | x :: xs, t, ys, ht, hv, e => by
    simp only [decItemsR] at e
    obtain ⟨y, e1, e2⟩ := Res.bind_eq_ok.1 e
    obtain ⟨ys', e3, e4⟩ := Res.bind_eq_ok.1 e2
    simp only [Res.ok.injEq] at e4
    subst e4
    have h1 := decValR_filled L x t ht hv.1 e1
    obtain ⟨h2, h3⟩ := decItemsR_filled L xs t ht hv.2 e3
    refine ⟨by simp [h2], ?_⟩
    intro i x' y' hx hy
    cases i with
    | zero => simp at hx hy; subst hx hy; exact h1
    | succ i => simp at hx hy; exact h3 i x' y' hx hy
theorem decMembersR_filled (L : KeyLaws { E with ignoreCase := ic }) : ∀ (kvs : List (Bytes × Val)), ValOkM E ic kvs →
    ∀ k w, (k, w) ∈ kvs → ∀ (t : Ty) {g : GV}, TyOkR R E ic t → decValR R E parse ic t (zero t) w = .ok g → FilledR R E parse ic t w g
  | [], _, k, w, hm, _, _, _, _ => by cases hm
  | (k', v) :: kvs, hv, k, w, hm, t, g, ht, e => by
    rcases List.mem_cons.1 hm with h | hm
    · have hw : w = v := congrArg Prod.snd h
      rw [hw] at e ⊢
      exact decValR_filled L v t ht hv.1 e
    · exact decMembersR_filled L kvs hv.2 k w hm t ht e
end

mutual
theorem decValR_ok (L : KeyLaws { E with ignoreCase := ic }) (hR : R.Total) : ∀ (v : Val) (t : Ty), TyOkR R E ic t → ValOk E ic v → NoNil v → ¬ Json.ShortBin v →
    ∃ g, decValR R E parse ic t (zero t) v = .ok g
  | .nil, t, _, _, hn, _ => absurd hn (by simp [NoNil])
  | .arr xs, t, ht, hv, hn, hb => by
    cases hr : R t with
    | some c => rw [decValR_some hr]; exact hR t c hr _ _
    | none =>
      simp only [decValR, hr]
      unfold TyOkR at ht
      simp only [hr, ne_eq, not_true, false_or] at ht
      cases t with
      | slice t' =>
        simp only [zero]
        split
        · exact ⟨_, rfl⟩
        · dsimp only at ht
          obtain ⟨ys, e⟩ := decItemsR_ok L hR xs t' ht.2.2 hv hn hb
          rw [ht.2.1]
          have ht' : t' ≠ .time := ht.1
          cases t' with
          | time => exact absurd rfl ht'
          | _ => simp only [e, Res.bind_ok]; exact ⟨_, rfl⟩
      | struct fs => exact ⟨zero (.struct fs), rfl⟩
      | _ => exact scVal_ok hn hb
  | .obj ku kvs, t, ht, hv, hn, hb => by
    cases hr : R t with
    | some c => rw [decValR_some hr]; exact hR t c hr _ _
    | none =>
      simp only [decValR, hr]
      unfold TyOkR at ht
      simp only [hr, ne_eq, not_true, false_or] at ht
      cases t with
      | struct fs =>
        obtain ⟨gs, e⟩ := decMembersR_ok L hR kvs fs (zeros fs) ht.1 ht.2 hv.1 hv.2 hn hb (zeros_length fs) (fun k w hm i f hf _ => zeros_get fs i f hf)
        exact ⟨.struct gs, by simp [zero, e]⟩
      | _ => exact scVal_ok hn hb
  | .str _, t, _, _, hn, hb | .raw _, t, _, _, hn, hb | .int _ _, t, _, _, hn, hb | .float _, t, _, _, hn, hb | .double _, t, _, _, hn, hb
  | .dateTime _, t, _, _, hn, hb | .bin _ _, t, _, _, hn, hb | .exbin _ _, t, _, _, hn, hb | .null, t, _, _, hn, hb | .tru, t, _, _, hn, hb
  | .fls, t, _, _, hn, hb | .nan, t, _, _, hn, hb | .inf, t, _, _, hn, hb => by
    cases hr : R t with
    | some c => rw [decValR_some hr]; exact hR t c hr _ _
    | none => simpa only [decValR, hr] using scVal_ok hn hb
theorem decItemsR_ok (L : KeyLaws { E with ignoreCase := ic }) (hR : R.Total) : ∀ (xs : List Val) (t : Ty), TyOkR R E ic t → ValOkL E ic xs → NoNilL xs → ¬ Json.ShortBinL xs →
    ∃ ys, decItemsR R E parse ic t xs = .ok ys
  | [], _, _, _, _, _ => ⟨[], rfl⟩
  | x :: xs, t, ht, hv, hn, hb => by
    simp only [Json.ShortBinL, not_or] at hb
    obtain ⟨y, e1⟩ := decValR_ok L hR x t ht hv.1 hn.1 hb.1
    obtain ⟨ys, e2⟩ := decItemsR_ok L hR xs t ht hv.2 hn.2 hb.2
    exact ⟨y :: ys, by simp [decItemsR, e1, e2]⟩
theorem decMembersR_ok (L : KeyLaws { E with ignoreCase := ic }) (hR : R.Total) : ∀ (kvs : List (Bytes × Val)) (fs : List (Bytes × Ty)) (gs : List GV),
    Assoc.Distinct (Fits E ic) fs → TyOkRF R E ic fs → Assoc.Distinct (Fits E ic) kvs → ValOkM E ic kvs → NoNilM kvs → ¬ Json.ShortBinM kvs → gs.length = fs.length →
    (∀ k w, (k, w) ∈ kvs → ∀ (i : Nat) (f : Bytes × Ty), fs[i]? = some f → Fits E ic k f.1 = true → gs[i]? = some (zero f.2)) →
    ∃ gs', decMembersR R E parse ic fs gs kvs = .ok gs'
  | [], _, gs, _, _, _, _, _, _, _, _ => ⟨gs, rfl⟩
  | (k, v) :: kvs, fs, gs, hd, ht, hk, hv, hn, hb, hl, hg => by
    simp only [Json.ShortBinM, not_or] at hb
    simp only [Assoc.Distinct, List.map_cons, List.pairwise_cons] at hk
    simp only [decMembersR]
    cases hi : fieldOf E ic k fs with
    | none => exact decMembersR_ok L hR kvs fs gs hd ht hk.2 hv.2 hn.2 hb.2 hl (fun k' w' hm => hg k' w' (List.mem_cons_of_mem _ hm))
    | some j =>
      obtain ⟨f, hf, hfit⟩ := fieldOf_some hi
      have hgj := hg k v List.mem_cons_self j f hf hfit
      obtain ⟨g', e⟩ := decValR_ok L hR v f.2 (tyOkRF_get ht (List.mem_of_getElem? hf)) hv.1 hn.1 hb.1
      simp only [hf, hgj, e, Res.bind_ok]
      refine decMembersR_ok L hR kvs fs (gs.set j g') hd ht hk.2 hv.2 hn.2 hb.2 (by simpa using hl) ?_
      intro k' w' hm i f' hf' hfit'
      have hne : j ≠ i := by
        rintro rfl
        rw [hf] at hf'
        cases hf'
        have := hk.1 k' (List.mem_map_of_mem (f := Prod.fst) hm)
        rw [fits_eq] at this hfit hfit'
        rw [L.match_trans hfit (L.match_symm hfit')] at this
        cases this
      rw [List.getElem?_set_ne hne]
      exact hg k' w' (List.mem_cons_of_mem _ hm) i f' hf' hfit'
end

/-! ## Without converters -/

mutual
theorem decValR_none (hr : ∀ t, R t = none) : ∀ (v : Val) (t : Ty) (g : GV), decValR R E parse ic t g v = decVal E parse ic t g v
  | .nil, t, g => by simp only [decValR, decVal, hr]; rfl
  | .arr xs, t, g => by
    simp only [decValR, decVal, hr]
    cases t with
    | slice t' => simp only [decItemsR_none hr xs]; rfl
    | _ => rfl
  | .obj ku kvs, t, g => by
    simp only [decValR, decVal, hr]
    cases t with
    | struct fs => cases g <;> simp only [decMembersR_none hr kvs]
    | _ => rfl
  | .str _, t, g | .raw _, t, g | .int _ _, t, g | .float _, t, g | .double _, t, g | .dateTime _, t, g | .bin _ _, t, g | .exbin _ _, t, g
  | .null, t, g | .tru, t, g | .fls, t, g | .nan, t, g | .inf, t, g => by simp only [decValR, decVal, hr]
theorem decItemsR_none (hr : ∀ t, R t = none) : ∀ (xs : List Val) (t : Ty), decItemsR R E parse ic t xs = decItems E parse ic t xs
  | [], t => rfl
  | x :: xs, t => by simp only [decItemsR, decItems, decValR_none hr x, decItemsR_none hr xs]
theorem decMembersR_none (hr : ∀ t, R t = none) : ∀ (kvs : List (Bytes × Val)) (fs : List (Bytes × Ty)) (gs : List GV),
    decMembersR R E parse ic fs gs kvs = decMembers E parse ic fs gs kvs
  | [], fs, gs => rfl
  | (k, v) :: kvs, fs, gs => by simp only [decMembersR, decMembers, decValR_none hr v, decMembersR_none hr kvs]; rfl
end

/-! ## Only the converters of the fields count -/

mutual
/-- The two tables agree on the type and on all types inside it. -/
def Agree (R R' : Reg) : Ty → Prop
  | .slice t => R (.slice t) = R' (.slice t) ∧ Agree R R' t
  | .struct fs => R (.struct fs) = R' (.struct fs) ∧ AgreeF R R' fs
  | t => R t = R' t
/-- The types of the fields. -/
def AgreeF (R R' : Reg) : List (Bytes × Ty) → Prop
  | [] => True
  | (_, t) :: fs => Agree R R' t ∧ AgreeF R R' fs
end

theorem agree_self {R' : Reg} {t : Ty} (h : Agree R R' t) : R t = R' t := by
  cases t <;> simp only [Agree] at h <;> first | exact h | exact h.1

theorem agreeF_get {R' : Reg} : ∀ {fs : List (Bytes × Ty)}, AgreeF R R' fs → ∀ {f}, f ∈ fs → Agree R R' f.2
  | (_, _) :: fs, h, f, hf => by
    simp only [AgreeF] at h
    rcases List.mem_cons.1 hf with rfl | hf
    · exact h.1
    · exact agreeF_get h.2 hf

mutual
theorem decValR_agree {R' : Reg} : ∀ (v : Val) (t : Ty) (g : GV), Agree R R' t → decValR R E parse ic t g v = decValR R' E parse ic t g v
  | .nil, t, g, h => by simp only [decValR, agree_self h]
  | .arr xs, t, g, h => by
    simp only [decValR, agree_self h]
    cases t with
    | slice t' =>
      simp only [Agree] at h
      simp only [agree_self h.2, decItemsR_agree xs t' h.2]
    | _ => rfl
  | .obj ku kvs, t, g, h => by
    simp only [decValR, agree_self h]
    cases t with
    | struct fs =>
      simp only [Agree] at h
      cases g <;> simp only [decMembersR_agree kvs fs _ h.2]
    | _ => rfl
  | .str _, t, g, h | .raw _, t, g, h | .int _ _, t, g, h | .float _, t, g, h | .double _, t, g, h | .dateTime _, t, g, h | .bin _ _, t, g, h | .exbin _ _, t, g, h
  | .null, t, g, h | .tru, t, g, h | .fls, t, g, h | .nan, t, g, h | .inf, t, g, h => by simp only [decValR, agree_self h]
theorem decItemsR_agree {R' : Reg} : ∀ (xs : List Val) (t : Ty), Agree R R' t → decItemsR R E parse ic t xs = decItemsR R' E parse ic t xs
  | [], t, _ => rfl
  | x :: xs, t, h => by simp only [decItemsR, decValR_agree x t _ h, decItemsR_agree xs t h]
theorem decMembersR_agree {R' : Reg} : ∀ (kvs : List (Bytes × Val)) (fs : List (Bytes × Ty)) (gs : List GV), AgreeF R R' fs →
    decMembersR R E parse ic fs gs kvs = decMembersR R' E parse ic fs gs kvs
  | [], fs, gs, _ => rfl
  | (k, v) :: kvs, fs, gs, h => by
    simp only [decMembersR]
    cases hi : fieldOf E ic k fs with
    | none => exact decMembersR_agree kvs fs gs h
    | some i =>
      dsimp only
      cases hf : fs[i]? with
      | none => exact decMembersR_agree kvs fs gs h
      | some f =>
        cases hg : gs[i]? with
        | none => exact decMembersR_agree kvs fs gs h
        | some g =>
          dsimp only
          rw [decValR_agree v f.2 g (agreeF_get h (List.mem_of_getElem? hf))]
          congr 1
          funext g'
          exact decMembersR_agree kvs fs _ h
end

/-! ## C111 -/

/-- **C111** for fields: with converters that do not panic, `ToStdValue` with a pointer to a zero struct and an object (conditions as for C80; no slice that is
filled element by element is one of times or of a registered type) answers true; every field of a registered type, at any depth, is what its converter makes
of the zero value and the member that fits its name; all other fields are as for C80. -/
theorem C111_fields_partial (L : KeyLaws { E with ignoreCase := ic }) (hR : R.Total) {ku : Bool} {kvs : List (Bytes × Val)} {fs : List (Bytes × Ty)}
    (hd : Assoc.Distinct (Fits E ic) fs) (ht : TyOkRF R E ic fs) (hv : ValOk E ic (.obj ku kvs)) (hn : NoNil (.obj ku kvs)) (hb : ¬ Json.ShortBin (.obj ku kvs)) :
    ∃ gs, toStdStructR R none E parse ic fs (zeros fs) (.obj ku kvs) = .ok (true, gs) ∧ FilledRF R E parse ic fs kvs gs := by
  obtain ⟨gs, e⟩ := decMembersR_ok (parse := parse) L hR kvs fs (zeros fs) hd ht hv.1 hv.2 hn hb (zeros_length fs) (fun k w hm i f hf _ => zeros_get fs i f hf)
  refine ⟨gs, by simp [toStdStructR, e], ?_⟩
  obtain ⟨h1, h2⟩ := decMembersR_get L hd kvs (zeros fs) gs (zeros_length fs) hv.1 e
  refine filledRF_of fs gs h1 ?_
  intro i f hf
  obtain ⟨a, b⟩ := h2 i f _ hf (zeros_get fs i f hf)
  have hl : i < gs.length := by have := (List.getElem?_eq_some_iff.1 hf).1; omega
  refine ⟨gs[i], List.getElem?_eq_getElem hl, ?_, ?_⟩
  · intro k w hm hfit
    obtain ⟨g', hg', ed⟩ := b k w hm hfit
    rw [List.getElem?_eq_getElem hl] at hg'
    cases hg'
    exact decMembersR_filled L kvs hv.2 k w hm f.2 (tyOkRF_get ht (List.mem_of_getElem? hf)) ed
  · intro hno
    have := a hno
    rw [List.getElem?_eq_getElem hl] at this
    simpa using this

/-- **C111**, any struct, zero or not: when the call returns, a field of a registered type with a fitting member is what the converter makes of what was in the
field and the member (which may be nil). -/
theorem C111_field (L : KeyLaws { E with ignoreCase := ic }) {ku : Bool} {kvs : List (Bytes × Val)} {fs : List (Bytes × Ty)} {gs gs' : List GV} {b : Bool}
    (hl : gs.length = fs.length) (hd : Assoc.Distinct (Fits E ic) fs) (hk : Assoc.Distinct (Fits E ic) kvs)
    (e : toStdStructR R none E parse ic fs gs (.obj ku kvs) = .ok (b, gs')) {i : Nat} {f : Bytes × Ty} {g : GV} {c : Conv} (hf : fs[i]? = some f) (hg : gs[i]? = some g)
    (hc : R f.2 = some c) {k : Bytes} {w : Val} (hm : (k, w) ∈ kvs) (hfit : Fits E ic k f.1 = true) : ∃ g', gs'[i]? = some g' ∧ c g w = .ok g' := by
  simp only [toStdStructR] at e
  obtain ⟨gs1, e1, e2⟩ := Res.bind_eq_ok.1 e
  cases e2
  obtain ⟨g', h1, h2⟩ := ((decMembersR_get L hd kvs gs gs' hl hk e1).2 i f g hf hg).2 k w hm hfit
  exact ⟨g', h1, by rwa [decValR_some hc] at h2⟩

/-- **C111**: without converters the result is that of C80. -/
theorem C111_no_converters (hr : ∀ t, R t = none) (fs : List (Bytes × Ty)) (gs : List GV) (v : Val) :
    toStdStructR R none E parse ic fs gs v = toStdStruct E parse ic fs gs v := by
  cases v <;> simp only [toStdStructR, toStdStruct, decMembersR_none hr]

/-- **C111**: two tables that agree on the types of the fields and all types inside them give the same result. -/
theorem C111_only_fields {R' : Reg} {fs : List (Bytes × Ty)} (h : AgreeF R R' fs) (gs : List GV) (v : Val) :
    toStdStructR R none E parse ic fs gs v = toStdStructR R' none E parse ic fs gs v := by
  cases v <;> simp only [toStdStructR, decMembersR_agree _ _ _ h]

/-- **C111**, a destination with `DxValueUnMarshaler`: its method gets the value, of whatever kind, and nothing else happens. -/
theorem C111_unmarshaler (m : List GV → Val → Res (List GV)) (fs : List (Bytes × Ty)) (gs gs' : List GV) (v : Val) (h : m gs v = .ok gs') :
    toStdStructR R (some m) E parse ic fs gs v = .ok (true, gs') := by
  simp [toStdStructR, h]

/-- **C111 fails** for slices: if the type `t` has a converter, and `[]t` has none, a non-empty array into a field of type `[]t` panics. -/
theorem C111_slice_panics (R : Reg) (E : Env) (parse : Bytes → Option F64) (ic : Bool) (n : Bytes) (t : Ty) (c : Conv) (h : R t = some c) (hs : R (.slice t) = none)
    (ys : Nat × List GV) (x : Val) (xs : List Val) :
    toStdStructR R none E parse ic [(n, .slice t)] [.slice ys.1 ys.2] (.obj true [(n, .arr (x :: xs))]) = .panic := by
  obtain ⟨m, ys⟩ := ys
  cases m <;> simp [toStdStructR, decMembersR, fieldOf, decValR, h, hs]

/-- **C111 fails** for the destination itself: a converter registered for the struct type of the destination (that is not the type of anything inside) is
ignored. -/
theorem C111_top_ignored (R : Reg) (E : Env) (parse : Bytes → Option F64) (ic : Bool) (fs : List (Bytes × Ty)) (eq : Ty → Bool) (c : Conv)
    (hin : AgreeF (R.register eq (some c)) R fs) (gs : List GV) (v : Val) :
    toStdStructR (R.register eq (some c)) none E parse ic fs gs v = toStdStructR R none E parse ic fs gs v :=
  C111_only_fields hin gs v

/-- A converter for `bool`: true for the string "yes". -/
def exReg : Reg := fun t =>
  match t with
  | .bool => some fun _ v => match v with
    | .str s => .ok (.bool (s == [121, 101, 115]))
    | _ => .ok (.bool false)
  | _ => none

/-- `struct { A bool; B struct { C bool; D int8 } }`. -/
def exRegTy : List (Bytes × Ty) := [([65], .bool), ([66], .struct [([67], .bool), ([68], .int 8)])]
/-- `{"A": true, "B": {"D": 7, "C": "yes"}}`. -/
def exRegObj : Val := .obj true [([65], .tru), ([66], .obj true [([68], .int 0 7), ([67], .str [121, 101, 115])])]

example : toStdStructR exReg none envEx (fun _ => none) false exRegTy (zeros exRegTy) exRegObj = .ok (true, [.bool false, .struct [.bool true, .int 8 7]]) := by rfl
example : toStdStruct envEx (fun _ => none) false exRegTy (zeros exRegTy) exRegObj = .ok (true, [.bool true, .struct [.bool false, .int 8 7]]) := by rfl

example : ∃ gs, toStdStructR exReg none envEx (fun _ => none) false exRegTy (zeros exRegTy) exRegObj = .ok (true, gs) ∧
    FilledRF exReg envEx (fun _ => none) false exRegTy (membersOf exRegObj) gs := by
  apply C111_fields_partial (envEx_keyLaws false)
  · intro t c h g v
    cases t <;> simp only [exReg, reduceCtorEq] at h
    cases h
    cases v <;> exact ⟨_, rfl⟩
  · unfold Assoc.Distinct; decide
  · simp only [TyOkRF, TyOkR, exRegTy, exReg, and_true]
    exact ⟨.inl (by simp), .inr ⟨by unfold Assoc.Distinct; decide, .inl (by simp), .inr trivial⟩⟩
  · simp only [ValOk, ValOkM, and_true]
    exact ⟨by unfold Assoc.Distinct; decide, by unfold Assoc.Distinct; decide⟩
  · simp [NoNil, NoNilM]
  · simp [Json.ShortBin, Json.ShortBinM]

/-- A converter for the type `struct { A bool }` of the destination, which panics: it is not called. -/
example : toStdStructR (exReg.register (fun t => match t with | .struct [([65], .bool)] => true | _ => false) (some fun _ _ => .panic)) none envEx (fun _ => none) false
    [([65], .bool)] [.bool false] (.obj true [([65], .str [121, 101, 115])]) = .ok (true, [.bool true]) := by
  rw [C111_top_ignored]
  · rfl
  · simp [AgreeF, Agree, Reg.register]

/-- The same type as a field: it is called. -/
example : toStdStructR (exReg.register (fun t => match t with | .struct [([65], .bool)] => true | _ => false) (some fun _ _ => .panic)) none envEx (fun _ => none) false
    [([66], .struct [([65], .bool)])] [.struct [.bool false]] (.obj true [([66], .obj true [])]) = .panic := by rfl

end Dxs.Reflect
