import Verif.Reflect.Std
import Verif.Props.Json
import Verif.Heap.Keys

/-!
# C80: ToStdValue into a struct
-/

namespace Dxs.Reflect
open Dxs.Heap

/-! ## The specification -/

/-- The name of a member fits the name of a field. -/
def Fits (E : Env) (ic : Bool) (k n : Bytes) : Bool := (ic && E.equalFold k n) || k == n

/-- The members of an object. -/
def membersOf : Val → List (Bytes × Val)
  | .obj _ kvs => kvs
  | _ => []

/-- The elements of an array. -/
def elementsOf : Val → List Val
  | .arr xs => xs
  | _ => []

mutual
/-- A Go value of type `t` that was zero has been filled with the value `v`: basic types with what `String`, `Int`, … give, slices element by element,
structs by name. -/
def Filled (E : Env) (parse : Bytes → Option F64) (ic : Bool) : Ty → Val → GV → Prop
  | .str, v, g => ∃ s, valString E v = .ok s ∧ g = .str s
  | .int w, v, g => g = .int w ((valInt E v).setWidth w)
  | .uint w, v, g => g = .uint w ((valInt E v).setWidth w)
  | .f32, v, g => g = .f32 (E.f64to32 (valDouble E v))
  | .f64, v, g => g = .f64 (valDouble E v)
  | .bool, v, g => g = .bool (valBool E v)
  | .time, v, g => g = .time (valTime E parse v)
  | .slice t, v, g => ∃ c ys, g = .slice c ys ∧ ys.length = (elementsOf v).length ∧ ∀ (i : Nat) (x : Val) (y : GV), (elementsOf v)[i]? = some x → ys[i]? = some y → Filled E parse ic t x y
  | .struct fs, v, g => ∃ gs, g = .struct gs ∧ FilledF E parse ic fs (membersOf v) gs
  | .other, _, g => g = .other
/-- The fields: those a member fits are filled with it, the others are still zero. -/
def FilledF (E : Env) (parse : Bytes → Option F64) (ic : Bool) : List (Bytes × Ty) → List (Bytes × Val) → List GV → Prop
  | [], _, gs => gs = []
  | (n, t) :: fs, ms, gs => ∃ g r, gs = g :: r ∧ (∀ k w, (k, w) ∈ ms → Fits E ic k n = true → Filled E parse ic t w g) ∧
      ((∀ k w, (k, w) ∈ ms → Fits E ic k n = false) → g = zero t) ∧ FilledF E parse ic fs ms r
end

mutual
/-- No struct has two fields whose names fit each other. -/
def TyOk (E : Env) (ic : Bool) : Ty → Prop
  | .slice t => TyOk E ic t
  | .struct fs => Assoc.Distinct (Fits E ic) fs ∧ TyOkF E ic fs
  | _ => True
/-- The fields. -/
def TyOkF (E : Env) (ic : Bool) : List (Bytes × Ty) → Prop
  | [] => True
  | (_, t) :: fs => TyOk E ic t ∧ TyOkF E ic fs
end

mutual
/-- No object has two members whose names fit each other. -/
def ValOk (E : Env) (ic : Bool) : Val → Prop
  | .obj _ kvs => Assoc.Distinct (Fits E ic) kvs ∧ ValOkM E ic kvs
  | .arr xs => ValOkL E ic xs
  | _ => True
/-- The members. -/
def ValOkM (E : Env) (ic : Bool) : List (Bytes × Val) → Prop
  | [] => True
  | (_, v) :: kvs => ValOk E ic v ∧ ValOkM E ic kvs
/-- The elements. -/
def ValOkL (E : Env) (ic : Bool) : List Val → Prop
  | [] => True
  | v :: vs => ValOk E ic v ∧ ValOkL E ic vs
end

/-! ## The loop over the members -/

variable {E : Env} {parse : Bytes → Option F64} {ic : Bool}

theorem fits_eq (E : Env) (ic : Bool) : Fits E ic = ({ E with ignoreCase := ic } : Env).keyMatch := rfl

theorem zeros_length : ∀ (fs : List (Bytes × Ty)), (zeros fs).length = fs.length
  | [] => rfl
  | (_, _) :: fs => by simp [zeros, zeros_length fs]

theorem zeros_get : ∀ (fs : List (Bytes × Ty)) (i : Nat) (f : Bytes × Ty), fs[i]? = some f → (zeros fs)[i]? = some (zero f.2)
  | [], i, f, h => by simp at h
  | (n, t) :: fs, 0, f, h => by simp at h; subst h; simp [zeros]
  | (n, t) :: fs, i + 1, f, h => by simp at h; simp [zeros, zeros_get fs i f h]

theorem distinct_get {α : Type} {m : Bytes → Bytes → Bool} {l : List (Bytes × α)} (h : Assoc.Distinct m l) {i j : Nat} {a b : Bytes × α}
    (hi : l[i]? = some a) (hj : l[j]? = some b) (hij : i < j) : m a.1 b.1 = false := by
  unfold Assoc.Distinct at h
  have := List.pairwise_iff_getElem.1 h i j (by have := List.getElem?_eq_some_iff.1 hi; simp; exact this.1) (by have := List.getElem?_eq_some_iff.1 hj; simp; exact this.1) hij
  obtain ⟨_, rfl⟩ := List.getElem?_eq_some_iff.1 hi
  obtain ⟨_, rfl⟩ := List.getElem?_eq_some_iff.1 hj
  simpa using this

/-- At most one field fits a name. -/
theorem field_unique (L : KeyLaws { E with ignoreCase := ic }) {fs : List (Bytes × Ty)} (hd : Assoc.Distinct (Fits E ic) fs) {k : Bytes} {i j : Nat} {f g : Bytes × Ty}
    (hi : fs[i]? = some f) (hj : fs[j]? = some g) (h1 : Fits E ic k f.1 = true) (h2 : Fits E ic k g.1 = true) : i = j := by
  rw [fits_eq] at *
  rcases Nat.lt_trichotomy i j with h | h | h
  · have := distinct_get hd hi hj h
    rw [L.match_trans (L.match_symm h1) h2] at this
    cases this
  · exact h
  · have := distinct_get hd hj hi h
    rw [L.match_trans (L.match_symm h2) h1] at this
    cases this

theorem fieldOf_some {k : Bytes} {fs : List (Bytes × Ty)} {i : Nat} (h : fieldOf E ic k fs = some i) : ∃ f, fs[i]? = some f ∧ Fits E ic k f.1 = true := by
  unfold fieldOf at h
  obtain ⟨hl, h1, -⟩ := List.findIdx?_eq_some_iff_getElem.1 h
  exact ⟨fs[i], List.getElem?_eq_getElem hl, h1⟩

theorem fieldOf_none {k : Bytes} {fs : List (Bytes × Ty)} (h : fieldOf E ic k fs = none) : ∀ f ∈ fs, Fits E ic k f.1 = false := by
  unfold fieldOf at h
  exact List.findIdx?_eq_none_iff.1 h

/-- What the loop leaves in field `i`. -/
theorem decMembers_get (L : KeyLaws { E with ignoreCase := ic }) {fs : List (Bytes × Ty)} (hd : Assoc.Distinct (Fits E ic) fs) :
    ∀ (kvs : List (Bytes × Val)) (gs gs' : List GV), gs.length = fs.length → Assoc.Distinct (Fits E ic) kvs → decMembers E parse ic fs gs kvs = .ok gs' →
      gs'.length = fs.length ∧ ∀ (i : Nat) (f : Bytes × Ty) (g : GV), fs[i]? = some f → gs[i]? = some g →
        ((∀ k w, (k, w) ∈ kvs → Fits E ic k f.1 = false) → gs'[i]? = some g) ∧
        (∀ k w, (k, w) ∈ kvs → Fits E ic k f.1 = true → ∃ g', gs'[i]? = some g' ∧ decVal E parse ic f.2 g w = .ok g') := by
  intro kvs
  induction kvs with
  | nil =>
    intro gs gs' hl _ e
    simp only [decMembers, Res.ok.injEq] at e
    subst e
    exact ⟨hl, fun i f g _ hg => ⟨fun _ => hg, fun k w hm => by cases hm⟩⟩
  | cons kv kvs ih =>
    obtain ⟨k, v⟩ := kv
    intro gs gs' hl hk e
    simp only [Assoc.Distinct, List.map_cons, List.pairwise_cons] at hk
    simp only [decMembers] at e
    cases hi : fieldOf E ic k fs with
    | none =>
      rw [hi] at e
      obtain ⟨h1, h2⟩ := ih gs gs' hl hk.2 e
      refine ⟨h1, fun i f g hf hg => ?_⟩
      have hno := fieldOf_none hi f (List.mem_of_getElem? hf)
      refine ⟨fun h => (h2 i f g hf hg).1 (fun k' w' hm => h k' w' (List.mem_cons_of_mem _ hm)), fun k' w' hm hfit => ?_⟩
      rcases List.mem_cons.1 hm with e | hm
      · cases e
        rw [hno] at hfit
        cases hfit
      · exact (h2 i f g hf hg).2 k' w' hm hfit
    | some j =>
      rw [hi] at e
      obtain ⟨fj, hfj, hfit⟩ := fieldOf_some hi
      have hjl : j < gs.length := by have := (List.getElem?_eq_some_iff.1 hfj).1; omega
      obtain ⟨gj, hgj⟩ : ∃ g, gs[j]? = some g := ⟨gs[j], List.getElem?_eq_getElem hjl⟩
      simp only [hfj, hgj] at e
      obtain ⟨g1, e1, e2⟩ := Res.bind_eq_ok.1 e
      obtain ⟨h1, h2⟩ := ih (gs.set j g1) gs' (by simpa using hl) hk.2 e2
      refine ⟨h1, fun i f g hf hg => ?_⟩
      by_cases hij : j = i
      · subst hij
        rw [hfj] at hf
        cases hf
        rw [hgj] at hg
        cases hg
        have hrest : ∀ k' w', (k', w') ∈ kvs → Fits E ic k' fj.1 = false := by
          intro k' w' hm
          have hne := hk.1 k' (List.mem_map_of_mem (f := Prod.fst) hm)
          cases hx : Fits E ic k' fj.1 with
          | false => rfl
          | true =>
            rw [fits_eq] at hne hx hfit
            rw [L.match_trans hfit (L.match_symm hx)] at hne
            cases hne
        have hset := (h2 j fj g1 hfj (by rw [List.getElem?_set_self hjl])).1 hrest
        refine ⟨fun h => ?_, fun k' w' hm hf' => ?_⟩
        · rw [h k v List.mem_cons_self] at hfit
          cases hfit
        · rcases List.mem_cons.1 hm with e | hm
          · cases e
            exact ⟨g1, hset, e1⟩
          · rw [hrest k' w' hm] at hf'
            cases hf'
      · have hg' : (gs.set j g1)[i]? = some g := by rw [List.getElem?_set_ne hij]; exact hg
        refine ⟨fun h => (h2 i f g hf hg').1 (fun k' w' hm => h k' w' (List.mem_cons_of_mem _ hm)), fun k' w' hm hf' => ?_⟩
        rcases List.mem_cons.1 hm with e | hm
        · cases e
          exact absurd (field_unique L hd hfj hf hfit hf') hij
        · exact (h2 i f g hf hg').2 k' w' hm hf'

theorem tyOkF_get : ∀ {fs : List (Bytes × Ty)}, TyOkF E ic fs → ∀ {f}, f ∈ fs → TyOk E ic f.2
  | (_, _) :: fs, h, f, hf => by
    rcases List.mem_cons.1 hf with rfl | hf
    · exact h.1
    · exact tyOkF_get h.2 hf

theorem filledF_of {ms : List (Bytes × Val)} : ∀ (fs : List (Bytes × Ty)) (gs : List GV), gs.length = fs.length →
    (∀ (i : Nat) (f : Bytes × Ty), fs[i]? = some f → ∃ g, gs[i]? = some g ∧ (∀ k w, (k, w) ∈ ms → Fits E ic k f.1 = true → Filled E parse ic f.2 w g) ∧
      ((∀ k w, (k, w) ∈ ms → Fits E ic k f.1 = false) → g = zero f.2)) → FilledF E parse ic fs ms gs
  | [], gs, hl, _ => by simp only [List.length_nil, List.length_eq_zero_iff] at hl; simp only [FilledF]; exact hl
  | (n, t) :: fs, gs, hl, h => by
    obtain ⟨g, hg, h1, h2⟩ := h 0 (n, t) rfl
    cases gs with
    | nil => simp at hl
    | cons g0 r =>
      simp at hg
      subst hg
      simp only [FilledF]
      refine ⟨g0, r, rfl, h1, h2, filledF_of fs r (by simpa using hl) ?_⟩
      intro i f hf
      obtain ⟨g, hg, h3⟩ := h (i + 1) f (by simpa using hf)
      exact ⟨g, by simpa using hg, h3⟩

theorem filledF_none : ∀ (fs : List (Bytes × Ty)), FilledF E parse ic fs [] (zeros fs)
  | [] => by simp only [FilledF, zeros]
  | (n, t) :: fs => by
    simp only [FilledF, zeros]
    exact ⟨zero t, zeros fs, rfl, (fun k w h => absurd h List.not_mem_nil), fun _ => rfl, filledF_none fs⟩

/-- A leaf, or anything else that a type does not look into. -/
theorem scVal_filled {t : Ty} {v : Val} {g : GV} (hm : ∀ fs, t = .struct fs → membersOf v = []) (he : ∀ t', t = .slice t' → elementsOf v = [])
    (e : scVal E parse t (zero t) v = .ok g) : Filled E parse ic t v g := by
  cases t with
  | str =>
    simp only [scVal] at e
    obtain ⟨s, e1, e2⟩ := Res.bind_eq_ok.1 e
    simp only [Res.ok.injEq] at e2
    exact ⟨s, e1, e2.symm⟩
  | slice t' =>
    simp only [scVal, Res.ok.injEq, zero] at e
    subst e
    exact ⟨0, [], rfl, by simp [he t' rfl], by intro i x y hx; simp [he t' rfl] at hx⟩
  | struct fs =>
    simp only [scVal, Res.ok.injEq, zero] at e
    subst e
    exact ⟨zeros fs, rfl, by rw [hm fs rfl]; exact filledF_none fs⟩
  | _ => simp only [scVal, Res.ok.injEq, zero] at e; subst e; simp only [Filled]

mutual
theorem decVal_filled (L : KeyLaws { E with ignoreCase := ic }) : ∀ (v : Val) (t : Ty) {g : GV}, TyOk E ic t → ValOk E ic v →
    decVal E parse ic t (zero t) v = .ok g → Filled E parse ic t v g
  | .nil, t, g, _, _, e => by
    cases t with
    | other => simp only [decVal, Res.ok.injEq, zero] at e; subst e; simp only [Filled]
    | _ => simp [decVal] at e
  | .arr xs, t, g, ht, hv, e => by
    cases t with
    | slice t' =>
      simp only [decVal, zero] at e
      split at e
      · rename_i hx
        simp only [List.isEmpty_iff] at hx
        simp only [Res.ok.injEq] at e
        subst hx e
        exact ⟨0, [], rfl, rfl, by simp [elementsOf]⟩
      · have e' : (decItems E parse ic t' xs >>= fun ys => Res.ok (GV.slice xs.length ys)) = .ok g := by
          cases t' <;> first | exact e | (simp at e; done)
        obtain ⟨ys, e1, e2⟩ := Res.bind_eq_ok.1 e'
        simp only [Res.ok.injEq] at e2
        subst e2
        obtain ⟨h1, h2⟩ := decItems_filled L xs t' ht hv e1
        exact ⟨_, ys, rfl, h1, h2⟩
    | struct fs =>
      simp only [decVal, Res.ok.injEq, zero] at e
      subst e
      exact ⟨zeros fs, rfl, filledF_none fs⟩
    | _ => exact scVal_filled (by simp) (by simp) e
  | .obj ku kvs, t, g, ht, hv, e => by
    cases t with
    | struct fs =>
      simp only [decVal, zero] at e
      obtain ⟨gs, e1, e2⟩ := Res.bind_eq_ok.1 e
      simp only [Res.ok.injEq] at e2
      subst e2
      obtain ⟨h1, h2⟩ := decMembers_get L ht.1 kvs (zeros fs) gs (zeros_length fs) hv.1 e1
      have hmem := decMembers_filled L kvs hv.2
      refine ⟨gs, rfl, filledF_of fs gs h1 ?_⟩
      intro i f hf
      obtain ⟨a, b⟩ := h2 i f _ hf (zeros_get fs i f hf)
      have hl : i < gs.length := by have := (List.getElem?_eq_some_iff.1 hf).1; omega
      refine ⟨gs[i], List.getElem?_eq_getElem hl, ?_, ?_⟩
      · intro k w hm hfit
        obtain ⟨g', hg', ed⟩ := b k w hm hfit
        rw [List.getElem?_eq_getElem hl] at hg'
        cases hg'
        exact hmem k w hm f.2 (tyOkF_get ht.2 (List.mem_of_getElem? hf)) ed
      · intro hno
        have := a hno
        rw [List.getElem?_eq_getElem hl] at this
        simpa using this
    | _ => exact scVal_filled (by simp) (by simp [elementsOf]) e
  | .str _, t, g, _, _, e | .raw _, t, g, _, _, e | .int _ _, t, g, _, _, e | .float _, t, g, _, _, e | .double _, t, g, _, _, e | .dateTime _, t, g, _, _, e
  | .bin _ _, t, g, _, _, e | .exbin _ _, t, g, _, _, e | .null, t, g, _, _, e | .tru, t, g, _, _, e | .fls, t, g, _, _, e | .nan, t, g, _, _, e | .inf, t, g, _, _, e =>
    scVal_filled (by simp [membersOf]) (by simp [elementsOf]) e
theorem decItems_filled (L : KeyLaws { E with ignoreCase := ic }) : ∀ (xs : List Val) (t : Ty) {ys : List GV}, TyOk E ic t → ValOkL E ic xs →
    decItems E parse ic t xs = .ok ys → ys.length = xs.length ∧ ∀ (i : Nat) (x : Val) (y : GV), xs[i]? = some x → ys[i]? = some y → Filled E parse ic t x y
  | [], t, ys, _, _, e => by simp only [decItems, Res.ok.injEq] at e; subst e; simp
  | x :: xs, t, ys, ht, hv, e => by
    simp only [decItems] at e
    obtain ⟨y, e1, e2⟩ := Res.bind_eq_ok.1 e
    obtain ⟨ys', e3, e4⟩ := Res.bind_eq_ok.1 e2
    simp only [Res.ok.injEq] at e4
    subst e4
    have h1 := decVal_filled L x t ht hv.1 e1
    obtain ⟨h2, h3⟩ := decItems_filled L xs t ht hv.2 e3
    refine ⟨by simp [h2], ?_⟩
    intro i x' y' hx hy
    cases i with
    | zero => simp at hx hy; subst hx hy; exact h1
    | succ i => simp at hx hy; exact h3 i x' y' hx hy
theorem decMembers_filled (L : KeyLaws { E with ignoreCase := ic }) : ∀ (kvs : List (Bytes × Val)), ValOkM E ic kvs →
    ∀ k w, (k, w) ∈ kvs → ∀ (t : Ty) {g : GV}, TyOk E ic t → decVal E parse ic t (zero t) w = .ok g → Filled E parse ic t w g
  | [], _, k, w, hm, _, _, _, _ => by cases hm
  | (k', v) :: kvs, hv, k, w, hm, t, g, ht, e => by
    rcases List.mem_cons.1 hm with h | hm
    · have hw : w = v := congrArg Prod.snd h
      rw [hw] at e ⊢
      exact decVal_filled L v t ht hv.1 e
    · exact decMembers_filled L kvs hv.2 k w hm t ht e
end

/-! ## Where it does not panic -/

mutual
/-- No member and no element, at any depth, is nil. -/
def NoNil : Val → Prop
  | .nil => False
  | .obj _ kvs => NoNilM kvs
  | .arr xs => NoNilL xs
  | _ => True
/-- The members. -/
def NoNilM : List (Bytes × Val) → Prop
  | [] => True
  | (_, v) :: kvs => NoNil v ∧ NoNilM kvs
/-- The elements. -/
def NoNilL : List Val → Prop
  | [] => True
  | v :: vs => NoNil v ∧ NoNilL vs
end

mutual
/-- No `[]time.Time` anywhere in the type. -/
def NoTimes : Ty → Prop
  | .slice t => t ≠ .time ∧ NoTimes t
  | .struct fs => NoTimesF fs
  | _ => True
/-- The fields. -/
def NoTimesF : List (Bytes × Ty) → Prop
  | [] => True
  | (_, t) :: fs => NoTimes t ∧ NoTimesF fs
end

mutual
theorem noNil_member : ∀ (v : Val), NoNil v → ¬ Json.NilMember v
  | .obj _ kvs, h => noNilM_member kvs h
  | .arr xs, h => noNilL_member xs h
  | .nil, h => absurd h (by simp [NoNil])
  | .str _, _ | .raw _, _ | .int _ _, _ | .float _, _ | .double _, _ | .dateTime _, _ | .bin _ _, _ | .exbin _ _, _ | .null, _ | .tru, _ | .fls, _ | .nan, _ | .inf, _ => by
    simp [Json.NilMember]
theorem noNilM_member : ∀ (kvs : List (Bytes × Val)), NoNilM kvs → ¬ Json.NilMemberM kvs
  | [], _ => by simp [Json.NilMemberM]
  | (_, v) :: kvs, h => by
    simp only [Json.NilMemberM, not_or]
    exact ⟨⟨by rintro rfl; exact h.1, noNil_member v h.1⟩, noNilM_member kvs h.2⟩
theorem noNilL_member : ∀ (vs : List Val), NoNilL vs → ¬ Json.NilMemberL vs
  | [], _ => by simp [Json.NilMemberL]
  | v :: vs, h => by
    simp only [Json.NilMemberL, not_or]
    exact ⟨noNil_member v h.1, noNilL_member vs h.2⟩
end

theorem valString_ok {v : Val} (h : NoNil v) (hb : ¬ Json.ShortBin v) : ∃ s, valString E v = .ok s := by
  have hj := (Json.C65_format_panics E .onlyAnsi false v).2 (by
    simp only [not_or]
    exact ⟨by rintro rfl; exact h, noNil_member v h, hb⟩)
  cases v with
  | bin e b => exact (Json.binText_panic E e b).2 hb
  | obj ku kvs => exact hj
  | arr xs => exact hj
  | nil => exact absurd h (by simp [NoNil])
  | _ => exact ⟨_, rfl⟩

theorem scVal_ok {t : Ty} {g : GV} {v : Val} (h : NoNil v) (hb : ¬ Json.ShortBin v) : ∃ g', scVal E parse t g v = .ok g' := by
  cases t with
  | str =>
    obtain ⟨s, e⟩ := valString_ok (E := E) h hb
    exact ⟨.str s, by simp [scVal, e]⟩
  | _ => exact ⟨_, rfl⟩

theorem noTimesF_get : ∀ {fs : List (Bytes × Ty)}, NoTimesF fs → ∀ {f}, f ∈ fs → NoTimes f.2
  | (_, _) :: fs, h, f, hf => by
    rcases List.mem_cons.1 hf with rfl | hf
    · exact h.1
    · exact noTimesF_get h.2 hf

mutual
theorem decVal_ok (L : KeyLaws { E with ignoreCase := ic }) : ∀ (v : Val) (t : Ty), TyOk E ic t → ValOk E ic v → NoTimes t → NoNil v → ¬ Json.ShortBin v →
    ∃ g, decVal E parse ic t (zero t) v = .ok g
  | .nil, t, _, _, _, hn, _ => absurd hn (by simp [NoNil])
  | .arr xs, t, ht, hv, hz, hn, hb => by
    cases t with
    | slice t' =>
      simp only [decVal, zero]
      split
      · exact ⟨_, rfl⟩
      · obtain ⟨ys, e⟩ := decItems_ok L xs t' ht hv hz.2 hn hb
        have ht' : t' ≠ .time := hz.1
        cases t' with
        | time => exact absurd rfl ht'
        | _ => simp only [e, Res.bind_ok]; exact ⟨_, rfl⟩
    | struct fs => exact ⟨zero (.struct fs), by simp only [decVal]⟩
    | _ => simpa only [decVal] using scVal_ok hn hb
  | .obj ku kvs, t, ht, hv, hz, hn, hb => by
    cases t with
    | struct fs =>
      obtain ⟨gs, e⟩ := decMembers_ok L kvs fs (zeros fs) ht.1 ht.2 hv.1 hv.2 hz hn hb (zeros_length fs) (fun k w hm i f hf _ => zeros_get fs i f hf)
      exact ⟨.struct gs, by simp [decVal, zero, e]⟩
    | _ => simpa only [decVal] using scVal_ok hn hb
  | .str _, t, _, _, _, hn, hb | .raw _, t, _, _, _, hn, hb | .int _ _, t, _, _, _, hn, hb | .float _, t, _, _, _, hn, hb | .double _, t, _, _, _, hn, hb
  | .dateTime _, t, _, _, _, hn, hb | .bin _ _, t, _, _, _, hn, hb | .exbin _ _, t, _, _, _, hn, hb | .null, t, _, _, _, hn, hb | .tru, t, _, _, _, hn, hb
  | .fls, t, _, _, _, hn, hb | .nan, t, _, _, _, hn, hb | .inf, t, _, _, _, hn, hb => by
    simpa only [decVal] using scVal_ok hn hb
theorem decItems_ok (L : KeyLaws { E with ignoreCase := ic }) : ∀ (xs : List Val) (t : Ty), TyOk E ic t → ValOkL E ic xs → NoTimes t → NoNilL xs → ¬ Json.ShortBinL xs →
    ∃ ys, decItems E parse ic t xs = .ok ys
  | [], _, _, _, _, _, _ => ⟨[], rfl⟩
  | x :: xs, t, ht, hv, hz, hn, hb => by
    simp only [Json.ShortBinL, not_or] at hb
    obtain ⟨y, e1⟩ := decVal_ok L x t ht hv.1 hz hn.1 hb.1
    obtain ⟨ys, e2⟩ := decItems_ok L xs t ht hv.2 hz hn.2 hb.2
    exact ⟨y :: ys, by simp [decItems, e1, e2]⟩
theorem decMembers_ok (L : KeyLaws { E with ignoreCase := ic }) : ∀ (kvs : List (Bytes × Val)) (fs : List (Bytes × Ty)) (gs : List GV),
    Assoc.Distinct (Fits E ic) fs → TyOkF E ic fs → Assoc.Distinct (Fits E ic) kvs → ValOkM E ic kvs → NoTimesF fs → NoNilM kvs → ¬ Json.ShortBinM kvs → gs.length = fs.length →
    (∀ k w, (k, w) ∈ kvs → ∀ (i : Nat) (f : Bytes × Ty), fs[i]? = some f → Fits E ic k f.1 = true → gs[i]? = some (zero f.2)) →
    ∃ gs', decMembers E parse ic fs gs kvs = .ok gs'
  | [], _, gs, _, _, _, _, _, _, _, _, _ => ⟨gs, rfl⟩
  | (k, v) :: kvs, fs, gs, hd, ht, hk, hv, hz, hn, hb, hl, hg => by
    simp only [Json.ShortBinM, not_or] at hb
    simp only [Assoc.Distinct, List.map_cons, List.pairwise_cons] at hk
    simp only [decMembers]
    cases hi : fieldOf E ic k fs with
    | none => exact decMembers_ok L kvs fs gs hd ht hk.2 hv.2 hz hn.2 hb.2 hl (fun k' w' hm => hg k' w' (List.mem_cons_of_mem _ hm))
    | some j =>
      obtain ⟨f, hf, hfit⟩ := fieldOf_some hi
      have hgj := hg k v List.mem_cons_self j f hf hfit
      obtain ⟨g', e⟩ := decVal_ok L v f.2 (tyOkF_get ht (List.mem_of_getElem? hf)) hv.1 (noTimesF_get hz (List.mem_of_getElem? hf)) hn.1 hb.1
      simp only [hf, hgj, e, Res.bind_ok]
      refine decMembers_ok L kvs fs (gs.set j g') hd ht hk.2 hv.2 hz hn.2 hb.2 (by simpa using hl) ?_
      intro k' w' hm i f' hf' hfit'
      have hne : j ≠ i := by
        rintro rfl
        rw [hf] at hf'
        cases hf'
        have := hk.1 k' (List.mem_map_of_mem (f := Prod.fst) hm)
        rw [fits_eq] at this hfit hfit'
        rw [L.match_trans hfit (L.match_symm hfit')] at this
        cases this
      rw [List.getElem?_set_ne hne]
      exact hg k' w' (List.mem_cons_of_mem _ hm) i f' hf' hfit'
end

/-! ## C80 -/

/-- **C80** for new structs: `ToStdValue` with a pointer to a zero struct (no two of its field names fit each other, no `[]time.Time` in it) and an
object without nil members, without binaries that `String` cannot show and without two members whose names fit each other: it answers true,
and every field has been filled from the member that fits its name, the other fields are still zero. -/
theorem C80_struct_partial (L : KeyLaws { E with ignoreCase := ic }) {ku : Bool} {kvs : List (Bytes × Val)} {fs : List (Bytes × Ty)}
    (ht : TyOk E ic (.struct fs)) (hv : ValOk E ic (.obj ku kvs)) (hz : NoTimes (.struct fs)) (hn : NoNil (.obj ku kvs)) (hb : ¬ Json.ShortBin (.obj ku kvs)) :
    ∃ gs, toStdStruct E parse ic fs (zeros fs) (.obj ku kvs) = .ok (true, gs) ∧ Filled E parse ic (.struct fs) (.obj ku kvs) (.struct gs) := by
  obtain ⟨g, e⟩ := decVal_ok (parse := parse) L (.obj ku kvs) (.struct fs) ht hv hz hn hb
  have hf := decVal_filled L _ _ ht hv e
  simp only [decVal, zero] at e
  obtain ⟨gs, e1, e2⟩ := Res.bind_eq_ok.1 e
  cases e2
  exact ⟨gs, by simp [toStdStruct, e1], hf⟩

/-- **C80**, the other fields: whatever the struct contains, a field without a fitting member is as before. -/
theorem C80_untouched (L : KeyLaws { E with ignoreCase := ic }) {ku : Bool} {kvs : List (Bytes × Val)} {fs : List (Bytes × Ty)} {gs gs' : List GV} {b : Bool}
    (hl : gs.length = fs.length) (hd : Assoc.Distinct (Fits E ic) fs) (hk : Assoc.Distinct (Fits E ic) kvs)
    (e : toStdStruct E parse ic fs gs (.obj ku kvs) = .ok (b, gs')) {i : Nat} {f : Bytes × Ty} (hf : fs[i]? = some f)
    (hno : ∀ k w, (k, w) ∈ kvs → Fits E ic k f.1 = false) : gs'[i]? = gs[i]? := by
  simp only [toStdStruct] at e
  obtain ⟨gs1, e1, e2⟩ := Res.bind_eq_ok.1 e
  cases e2
  have hi : i < gs.length := by have := (List.getElem?_eq_some_iff.1 hf).1; omega
  have hg := List.getElem?_eq_getElem hi
  rw [((decMembers_get L hd kvs gs gs' hl hk e1).2 i f _ hf hg).1 hno, hg]

/-- Anything but an object is refused, and nothing is written. -/
theorem C80_not_object {fs : List (Bytes × Ty)} {gs : List GV} {v : Val} (h1 : v ≠ .nil) (h2 : v.vt ≠ .object) :
    toStdStruct E parse ic fs gs v = .ok (false, gs) := by
  cases v <;> first | rfl | (exact absurd rfl h1) | (exact absurd rfl h2)

/-- The type `struct { A string; B []int8; C struct { D bool }; E float64 }`. -/
def exTy : List (Bytes × Ty) := [([65], .str), ([66], .slice (.int 8)), ([67], .struct [([68], .bool)]), ([69], .f64)]
/-- The object `{"C": {"D": true}, "B": [1, 258], "X": null, "A": 7}`. -/
def exObj : Val := .obj true [([67], .obj true [([68], .tru)]), ([66], .arr [.int 0 1, .int 0 258]), ([88], .null), ([65], .int 0 7)]

example : toStdStruct envEx (fun _ => none) false exTy (zeros exTy) exObj =
    .ok (true, [.str [55], .slice 2 [.int 8 1, .int 8 2], .struct [.bool true], .f64 0]) := by rfl

example : ∃ gs, toStdStruct envEx (fun _ => none) false exTy (zeros exTy) exObj = .ok (true, gs) ∧ Filled envEx (fun _ => none) false (.struct exTy) exObj (.struct gs) := by
  apply C80_struct_partial (envEx_keyLaws false)
  · simp only [TyOk, TyOkF, exTy, and_true]
    exact ⟨by unfold Assoc.Distinct; decide, by unfold Assoc.Distinct; decide⟩
  · simp only [ValOk, ValOkM, ValOkL, and_true]
    exact ⟨by unfold Assoc.Distinct; decide, by unfold Assoc.Distinct; decide⟩
  · simp [NoTimes, NoTimesF, exTy]
  · simp [NoNil, NoNilM, NoNilL]
  · simp [Json.ShortBin, Json.ShortBinM, Json.ShortBinL]

/-- **C80 fails** when a slice of the struct has a capacity already (a struct that is filled a second time): `Field` of a slice panics. -/
theorem C80_second_fill_panics (E : Env) (parse : Bytes → Option F64) (ic : Bool) (n : Bytes) (t : Ty) (c : Nat) (ys : List GV) (x : Val) (xs : List Val) :
    toStdStruct E parse ic [(n, .slice t)] [.slice (c + 1) ys] (.obj true [(n, .arr (x :: xs))]) = .panic := by
  simp [toStdStruct, decMembers, fieldOf, decVal]

/-- **C80 fails** for `[]time.Time`: every non-empty array panics. -/
theorem C80_times_panic (E : Env) (parse : Bytes → Option F64) (ic : Bool) (n : Bytes) (x : Val) (xs : List Val) :
    toStdStruct E parse ic [(n, .slice .time)] (zeros [(n, .slice .time)]) (.obj true [(n, .arr (x :: xs))]) = .panic := by
  simp [toStdStruct, decMembers, fieldOf, decVal, zeros, zero]

/-- **C80 fails** for names that still have their escapes: a member of a parsed text whose name `k` means `n` (so `ValueByName` finds it as `n`) does not
reach the field `n`. -/
theorem C80_escaped_name (E : Env) (parse : Bytes → Option F64) (k n : Bytes) (hk : k ≠ n) (t : Ty) (v : Val) :
    toStdStruct E parse false [(n, t)] [zero t] (.obj false [(k, v)]) = .ok (true, [zero t]) := by
  simp [toStdStruct, decMembers, fieldOf, hk]

example : envEx.unesc [92, 65] = [65] ∧ ([92, 65] : Bytes) ≠ [65] := by decide

/-- **C80 fails** for fields whose names differ in case only: with `ignoreCase` the member `a` is written to the field `A`, though there is a field `a`. -/
theorem C80_case : toStdStruct { envEx with ignoreCase := true } (fun _ => none) true [([65], .bool), ([97], .bool)] [.bool false, .bool false]
    (.obj true [([97], .tru)]) = .ok (true, [.bool true, .bool false]) := by rfl

/-- **C80 fails** for numbers that do not fit the field: 256 becomes 0 in an `int8`, and the answer is still true. -/
theorem C80_truncated : toStdStruct envEx (fun _ => none) false [([65], .int 8)] [.int 8 1] (.obj true [([65], .int 0 256)]) = .ok (true, [.int 8 0]) := by rfl

/-- **C80 fails** for `[]byte`: such a field is not filled from a binary. -/
theorem C80_bytes (E : Env) (parse : Bytes → Option F64) (ic : Bool) (n : Bytes) (ext : UInt8) (b : Bytes) :
    toStdStruct E parse ic [(n, .slice (.uint 8))] (zeros [(n, .slice (.uint 8))]) (.obj true [(n, .bin ext b)]) = .ok (true, [.slice 0 []]) := by
  simp [toStdStruct, decMembers, fieldOf, decVal, scVal, zeros, zero]

end Dxs.Reflect
