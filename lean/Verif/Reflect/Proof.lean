import Verif.Reflect.Spec
import Verif.Heap.Step
import Verif.Heap.Prog

/-!
# `SetValue` stores the data
-/

namespace Dxs.Reflect
open Dxs.Heap

/-- All names are unescaped, as they are in an object built by `SetKey` alone. -/
def Open (ku : Bool) (ms : List (Bytes × Val)) : Prop := ku = true ∨ ms = []

/-- No member has this name. -/
def Fresh (E : Env) {α : Type} (ms : List (Bytes × α)) (name : Bytes) : Prop := ∀ kv ∈ ms, E.keyMatch kv.1 name = false

theorem findKey_fresh {E : Env} {α : Type} {ms : List (Bytes × α)} {name : Bytes} (h : Fresh E ms name) : findKey E ms name = none := by
  unfold findKey
  rw [List.findIdx?_eq_none_iff]
  exact h

theorem indexByName_open {E : Env} {ku : Bool} {ms : List (Bytes × Val)} (op : Open ku ms) {name : Bytes} (hn : Fresh E ms name) :
    indexByName E ku ms name = (none, true, ms) := by
  rcases op with rfl | rfl
  · simp [indexByName, unescKeys, findKey_fresh hn]
  · cases ku <;> simp [indexByName, unescKeys, findKey]

theorem objPut_open {E : Env} {ku : Bool} {ms : List (Bytes × Val)} (op : Open ku ms) {name : Bytes} (hn : Fresh E ms name) (w : Val) :
    objPut E ku ms name w = .obj true (ms ++ [(name, w)]) := by
  simp [objPut, setKeyValueObj, indexByName_open op hn]

theorem objOld_open {E : Env} {ku : Bool} {ms : List (Bytes × Val)} (op : Open ku ms) {name : Bytes} (hn : Fresh E ms name) :
    objOld E ku ms name = none := by
  simp [objOld, indexByName_open op hn]

theorem arrPut_len (xs : List Val) (w : Val) : arrPut xs (xs.length : Nat) w = .arr (xs ++ [w]) := by
  simp [arrPut, inRange]

theorem arrOld_len (xs : List Val) : arrOld xs (xs.length : Nat) = none := by
  simp [arrOld, inRange]

variable {E : Env}

/-- One round of `setRItems`. -/
def rItem (E : Env) (h : Heap) (p : Ptr) (c : Option CId) (i : Nat) (g : Go) : Res Heap :=
  match g with
  | .nilPtr _ => .ok (setIndexCached h p i .null c).2
  | g => setIndexvalue E h p i c g

theorem setRItems_cons (h : Heap) (p : Ptr) (c : Option CId) (i : Nat) (g : Go) (xs : List Go) :
    setRItems E h p c i (g :: xs) = rItem E h p c i g >>= fun h => setRItems E h p c (i + 1) xs := by
  cases g <;> rfl

/-- One round of `setFields`. -/
def field (E : Env) (h : Heap) (p : Ptr) (c : Option CId) (fld : Bool) (k : Bytes) (g : Go) : Res Heap :=
  match g with
  | .sc s => rscKey E h p k c fld s
  | .named s => rscKey E h p k c fld s
  | .nilPtr _ => .panic
  | g => setKeyvalue E h p k c g

theorem setFields_cons (h : Heap) (p : Ptr) (c : Option CId) (fld : Bool) (k : Bytes) (g : Go) (fs : List (Bytes × Go)) :
    setFields E h p c fld ((k, g) :: fs) = field E h p c fld k g >>= fun h => setFields E h p c fld fs := by
  cases g <;> rfl

/-! ## The number of caches only grows -/

/-- The caches a call may use. -/
def Any : CId → Prop := fun _ => True

theorem scKey_st {h : Heap} (K : Inv h) (p : Ptr) (name : Bytes) (c : Option CId) (hc : ∀ d, c = some d → d < h.nextC) (s : Sc) {h' : Heap}
    (e : scKey E h p name c s = .ok h') : Step Any h h' := by
  have key := fun t q h1 => K.setKeyCached_st (X := Any) E p name t c hc (fun _ _ => trivial) (fun _ _ => trivial) (q := q) (h' := h1)
  cases s with
  | bool b => simp only [scKey, Res.ok.injEq] at e; subst e; exact K.setKeyValue_st E p name _
  | int x | uint x | str x | f32 x | f64 x =>
    simp only [scKey] at e
    obtain ⟨⟨q, h1⟩, e1, e2⟩ := Res.bind_eq_ok.1 e
    simp only [Res.ok.injEq] at e2
    subst e2
    have s1 := key _ _ _ e1
    first
      | exact s1.trans (s1.inv.setInt_st q x)
      | exact s1.trans (s1.inv.setString_st q x)
      | exact s1.trans (s1.inv.setFloat_st q x)
      | exact s1.trans (s1.inv.setDouble_st q x)

theorem rscKey_st {h : Heap} (K : Inv h) (p : Ptr) (name : Bytes) (c : Option CId) (hc : ∀ d, c = some d → d < h.nextC) (fld : Bool) (s : Sc) {h' : Heap}
    (e : rscKey E h p name c fld s = .ok h') : Step Any h h' := by
  have key := fun t q h1 => K.setKeyCached_st (X := Any) E p name t c hc (fun _ _ => trivial) (fun _ _ => trivial) (q := q) (h' := h1)
  cases s with
  | bool b => simp only [rscKey, Res.ok.injEq] at e; subst e; exact K.setKeyValue_st E p name _
  | uint x =>
    simp only [rscKey] at e
    obtain ⟨⟨q, h1⟩, e1, e2⟩ := Res.bind_eq_ok.1 e
    cases fld
    · simp only [Bool.false_eq_true, if_false, Res.ok.injEq] at e2
      subst e2
      have s1 := key _ _ _ e1
      exact s1.trans (s1.inv.setInt_st q x)
    · simp at e2
  | int x | str x | f32 x | f64 x =>
    simp only [rscKey] at e
    obtain ⟨⟨q, h1⟩, e1, e2⟩ := Res.bind_eq_ok.1 e
    simp only [Res.ok.injEq] at e2
    subst e2
    have s1 := key _ _ _ e1
    first
      | exact s1.trans (s1.inv.setInt_st q x)
      | exact s1.trans (s1.inv.setString_st q x)
      | exact s1.trans (s1.inv.setFloat_st q x)
      | exact s1.trans (s1.inv.setDouble_st q x)

theorem scIdx_st {h : Heap} (K : Inv h) (p : Ptr) (i : Nat) (c : Option CId) (hc : ∀ d, c = some d → d < h.nextC) (s : Sc) :
    Step Any h (scIdx h p i c s) := by
  have key := fun t => K.setIndexCached_st (X := Any) p i t c hc (fun _ _ => trivial)
  cases s with
  | bool b => exact K.setIndexValue_st p _ _
  | int x | uint x => exact (key _).trans ((key _).inv.setInt_st _ x)
  | str x => exact (key _).trans ((key _).inv.setString_st _ x)
  | f32 x => exact (key _).trans ((key _).inv.setFloat_st _ x)
  | f64 x => exact (key _).trans ((key _).inv.setDouble_st _ x)

theorem setBinary_st {h : Heap} (K : Inv h) (p : Ptr) (b : Bytes) : Step Any h (setBinary h p b) := by
  unfold setBinary
  split
  · exact K.upd_st p _ (by intro n; exact ⟨rfl, rfl⟩)
  · split
    · exact K.upd_st p _ (by intro n; exact ⟨rfl, rfl⟩)
    · exact (K.reset_st p _).andUpd (by intro n; exact ⟨rfl, rfl⟩)
  · exact K.refl_st

theorem lt_st {h h' : Heap} (s : Step Any h h') {c : Option CId} (hc : ∀ d, c = some d → d < h.nextC) : ∀ d, c = some d → d < h'.nextC :=
  fun d hd => Nat.lt_of_lt_of_le (hc d hd) s.nextC

mutual
theorem setKeyvalue_st (g : Go) {h : Heap} (K : Inv h) (p : Ptr) (name : Bytes) (c : Option CId) (hc : ∀ d, c = some d → d < h.nextC) {h' : Heap}
    (e : setKeyvalue E h p name c g = .ok h') : Step Any h h' := by
  have key := fun t q h1 => K.setKeyCached_st (X := Any) E p name t c hc (fun _ _ => trivial) (fun _ _ => trivial) (q := q) (h' := h1)
  cases g with
  | nil | named _ | other => simp only [setKeyvalue, Res.ok.injEq] at e; subst e; exact K.refl_st
  | sc s => simp only [setKeyvalue] at e; exact scKey_st K p name c hc s e
  | time x =>
    simp only [setKeyvalue] at e
    obtain ⟨⟨q, h1⟩, e1, e2⟩ := Res.bind_eq_ok.1 e
    simp only [Res.ok.injEq] at e2
    subst e2
    exact (key _ _ _ e1).trans ((key _ _ _ e1).inv.setDouble_st q x)
  | bytes b =>
    simp only [setKeyvalue] at e
    obtain ⟨⟨q, h1⟩, e1, e2⟩ := Res.bind_eq_ok.1 e
    simp only [Res.ok.injEq] at e2
    subst e2
    exact (key _ _ _ e1).trans (setBinary_st (key _ _ _ e1).inv q b)
  | map kvs =>
    simp only [setKeyvalue] at e
    obtain ⟨⟨q, h1⟩, e1, e2⟩ := Res.bind_eq_ok.1 e
    exact (key _ _ _ e1).trans (setKeys_st kvs (key _ _ _ e1).inv q c (lt_st (key _ _ _ e1) hc) e2)
  | slice xs =>
    simp only [setKeyvalue] at e
    obtain ⟨⟨q, h1⟩, e1, e2⟩ := Res.bind_eq_ok.1 e
    exact (key _ _ _ e1).trans (setItems_st xs (key _ _ _ e1).inv q c 0 (lt_st (key _ _ _ e1) hc) e2)
  | rmap kvs =>
    cases kvs with
    | nil => simp only [setKeyvalue, Res.ok.injEq] at e; subst e; exact K.refl_st
    | cons kv kvs =>
      simp only [setKeyvalue] at e
      obtain ⟨⟨q, h1⟩, e1, e2⟩ := Res.bind_eq_ok.1 e
      exact (key _ _ _ e1).trans (setFields_st (kv :: kvs) (key _ _ _ e1).inv q c false (lt_st (key _ _ _ e1) hc) e2)
  | rslice xs =>
    simp only [setKeyvalue] at e
    obtain ⟨⟨q, h1⟩, e1, e2⟩ := Res.bind_eq_ok.1 e
    exact (key _ _ _ e1).trans (setRItems_st xs (key _ _ _ e1).inv q c 0 (lt_st (key _ _ _ e1) hc) e2)
  | struct fs =>
    simp only [setKeyvalue] at e
    obtain ⟨⟨q, h1⟩, e1, e2⟩ := Res.bind_eq_ok.1 e
    exact (key _ _ _ e1).trans (setFields_st fs (key _ _ _ e1).inv q c true (lt_st (key _ _ _ e1) hc) e2)
  | nilPtr b =>
    cases b
    · simp only [setKeyvalue, Bool.false_eq_true, if_false, Res.ok.injEq] at e; subst e; exact K.refl_st
    · simp [setKeyvalue] at e
theorem setIndexvalue_st (g : Go) {h : Heap} (K : Inv h) (p : Ptr) (i : Nat) (c : Option CId) (hc : ∀ d, c = some d → d < h.nextC) {h' : Heap}
    (e : setIndexvalue E h p i c g = .ok h') : Step Any h h' := by
  have key := fun t => K.setIndexCached_st (X := Any) p i t c hc (fun _ _ => trivial)
  cases g with
  | nil | named _ | other => simp only [setIndexvalue, Res.ok.injEq] at e; subst e; exact K.refl_st
  | sc s => simp only [setIndexvalue, Res.ok.injEq] at e; subst e; exact scIdx_st K p i c hc s
  | time x => simp only [setIndexvalue, Res.ok.injEq] at e; subst e; exact (key _).trans ((key _).inv.setDouble_st _ x)
  | bytes b => simp only [setIndexvalue, Res.ok.injEq] at e; subst e; exact (key _).trans (setBinary_st (key _).inv _ b)
  | map kvs => simp only [setIndexvalue] at e; exact (key _).trans (setKeys_st kvs (key _).inv _ c (lt_st (key _) hc) e)
  | slice xs => simp only [setIndexvalue] at e; exact (key _).trans (setItems_st xs (key _).inv _ c 0 (lt_st (key _) hc) e)
  | rmap kvs =>
    cases kvs with
    | nil => simp only [setIndexvalue, Res.ok.injEq] at e; subst e; exact K.refl_st
    | cons kv kvs => simp only [setIndexvalue] at e; exact (key _).trans (setFields_st (kv :: kvs) (key _).inv _ c false (lt_st (key _) hc) e)
  | rslice xs => simp only [setIndexvalue] at e; exact (key _).trans (setRItems_st xs (key _).inv _ c 0 (lt_st (key _) hc) e)
  | struct fs => simp only [setIndexvalue] at e; exact (key _).trans (setFields_st fs (key _).inv _ c true (lt_st (key _) hc) e)
  | nilPtr b => simp [setIndexvalue] at e
theorem setKeys_st (kvs : List (Bytes × Go)) {h : Heap} (K : Inv h) (p : Ptr) (c : Option CId) (hc : ∀ d, c = some d → d < h.nextC) {h' : Heap}
    (e : setKeys E h p c kvs = .ok h') : Step Any h h' := by
  match kvs with
  | [] => simp only [setKeys, Res.ok.injEq] at e; subst e; exact K.refl_st
  | (k, g) :: kvs =>
    simp only [setKeys] at e
    obtain ⟨h1, e1, e2⟩ := Res.bind_eq_ok.1 e
    have s1 := setKeyvalue_st g K p k c hc e1
    exact s1.trans (setKeys_st kvs s1.inv p c (lt_st s1 hc) e2)
theorem setItems_st (xs : List Go) {h : Heap} (K : Inv h) (p : Ptr) (c : Option CId) (i : Nat) (hc : ∀ d, c = some d → d < h.nextC) {h' : Heap}
    (e : setItems E h p c i xs = .ok h') : Step Any h h' := by
  match xs with
  | [] => simp only [setItems, Res.ok.injEq] at e; subst e; exact K.refl_st
  | g :: xs =>
    simp only [setItems] at e
    obtain ⟨h1, e1, e2⟩ := Res.bind_eq_ok.1 e
    have s1 := setIndexvalue_st g K p i c hc e1
    exact s1.trans (setItems_st xs s1.inv p c (i + 1) (lt_st s1 hc) e2)
theorem setRItems_st (xs : List Go) {h : Heap} (K : Inv h) (p : Ptr) (c : Option CId) (i : Nat) (hc : ∀ d, c = some d → d < h.nextC) {h' : Heap}
    (e : setRItems E h p c i xs = .ok h') : Step Any h h' := by
  match xs with
  | [] => simp only [setRItems, Res.ok.injEq] at e; subst e; exact K.refl_st
  | g :: xs =>
    rw [setRItems_cons] at e
    obtain ⟨h1, e1, e2⟩ := Res.bind_eq_ok.1 e
    have s1 : Step Any h h1 := by
      unfold rItem at e1
      split at e1
      · simp only [Res.ok.injEq] at e1
        subst e1
        exact K.setIndexCached_st p i _ c hc (fun _ _ => trivial)
      · exact setIndexvalue_st g K p i c hc e1
    exact s1.trans (setRItems_st xs s1.inv p c (i + 1) (lt_st s1 hc) e2)
theorem setFields_st (fs : List (Bytes × Go)) {h : Heap} (K : Inv h) (p : Ptr) (c : Option CId) (fld : Bool) (hc : ∀ d, c = some d → d < h.nextC) {h' : Heap}
    (e : setFields E h p c fld fs = .ok h') : Step Any h h' := by
  match fs with
  | [] => simp only [setFields, Res.ok.injEq] at e; subst e; exact K.refl_st
  | (k, g) :: fs =>
    rw [setFields_cons] at e
    obtain ⟨h1, e1, e2⟩ := Res.bind_eq_ok.1 e
    have s1 : Step Any h h1 := by
      unfold field at e1
      split at e1
      · exact rscKey_st K p k c hc fld _ e1
      · exact rscKey_st K p k c hc fld _ e1
      · simp at e1
      · exact setKeyvalue_st g K p k c hc e1
    exact s1.trans (setFields_st fs s1.inv p c fld (lt_st s1 hc) e2)
end

/-! ## New members and elements -/

/-- `SetKeyCached` with a new name followed by an action on the node it returned. -/
theorem key_then {h : Heap} {p : Ptr} {ku : Bool} {ms : List (Bytes × Val)} {F : List Ptr} (g : Good h (some p) (.obj ku ms) F) (op : Open ku ms)
    {name : Bytes} (hn : Fresh E ms name) (t : VT) (c : Option CId) (hc : ∀ d, c = some d → d < h.nextC) :
    ∃ q h1 w, setKeyCached E h p name t c = .ok (q, h1) ∧ 5 ≤ q ∧ (∃ x, w = blankVal t x) ∧ ∃ Fq, Good h1 (some q) w Fq ∧
      ∀ h2 w' Fq', Upd h1 Fq h2 (some q) w' Fq' → ∃ F', Upd h F h2 (some p) (.obj true (ms ++ [(name, w')])) F' := by
  obtain ⟨q, h1, w, F1, he, u, hk, h5, hs⟩ := setKeyCached_obj E g name t c hc (by rw [objOld_open op hn]; simp)
  obtain ⟨b, Fq, hb, gq, -, hupd⟩ := u.good.kid (kids_objPut E ku ms name w)
  rw [hk] at hb
  cases hb
  rw [objOld_open op hn] at hs
  refine ⟨q, h1, w, he, h5, hs, Fq, gq, ?_⟩
  intro h2 w' Fq' u2
  obtain ⟨F', u3⟩ := hupd [] h2 w' Fq' u2 (by simp)
  rw [setKid_objPut, objPut_open op hn] at u3
  exact ⟨F', UpdX.trans u u3⟩

/-- `SetIndexCached` behind the last element followed by an action on the node it returned. -/
theorem idx_then {h : Heap} {p : Ptr} {ys : List Val} {F : List Ptr} (g : Good h (some p) (.arr ys) F) {i : Nat} (hi : i = ys.length)
    (t : VT) (c : Option CId) (hc : ∀ d, c = some d → d < h.nextC) :
    ∃ w Fq, (∃ x, w = blankVal t x) ∧ Good (setIndexCached h p i t c).2 (some (setIndexCached h p i t c).1) w Fq ∧
      ((constOf t).isNone → 5 ≤ (setIndexCached h p i t c).1) ∧
        ∀ h2 w' Fq', Upd (setIndexCached h p i t c).2 Fq h2 (some (setIndexCached h p i t c).1) w' Fq' →
          ∃ F', Upd h F h2 (some p) (.arr (ys ++ [w'])) F' := by
  subst hi
  obtain ⟨w, F1, u, hk, hs, h5⟩ := setIndexCached_arr g (ys.length : Nat) t c hc
  obtain ⟨b, Fq, hb, gq, -, hupd⟩ := u.good.kid (kids_arrPut ys (ys.length : Nat) w)
  rw [hk] at hb
  cases hb
  rw [arrOld_len] at hs
  refine ⟨w, Fq, hs, gq, h5, ?_⟩
  intro h2 w' Fq' u2
  obtain ⟨F', u3⟩ := hupd [] h2 w' Fq' u2 (by simp)
  rw [setKid_arrPut, arrPut_len] at u3
  exact ⟨F', UpdX.trans u u3⟩

theorem bool_good {h : Heap} (I : Inv h) (b : Bool) : Good h (some (if b then trueP else falseP)) (if b then Val.tru else .fls) [] := by
  cases b
  · obtain ⟨w, gw⟩ := const_tree I (p := falseP) (by decide)
    have := rep_dt gw.rep
    rw [I.const _ (by decide)] at this
    obtain rfl : w = .fls := by
      have h2 : w.vt = .false := this.symm
      cases w <;> simp_all [Val.vt]
    exact gw
  · obtain ⟨w, gw⟩ := const_tree I (p := trueP) (by decide)
    have := rep_dt gw.rep
    rw [I.const _ (by decide)] at this
    obtain rfl : w = .tru := by
      have h2 : w.vt = .true := this.symm
      cases w <;> simp_all [Val.vt]
    exact gw

/-- A shared true or false as a new member. -/
theorem key_bool {h : Heap} {p : Ptr} {ku : Bool} {ms : List (Bytes × Val)} {F : List Ptr} (g : Good h (some p) (.obj ku ms) F) (op : Open ku ms)
    {name : Bytes} (hn : Fresh E ms name) (b : Bool) :
    ∃ F', Upd h F (setKeyValue E h p name (some (if b then trueP else falseP))) (some p) (.obj true (ms ++ [(name, if b then Val.tru else .fls)])) F' := by
  have := setKeyValue_obj E g name (bool_good g.inv b) (by simp)
  rwa [objPut_open op hn] at this

/-- A shared true or false as a new element. -/
theorem idx_bool {h : Heap} {p : Ptr} {ys : List Val} {F : List Ptr} (g : Good h (some p) (.arr ys) F) {i : Nat} (hi : i = ys.length) (b : Bool) :
    ∃ F', Upd h F (setIndexValue h p i (some (if b then trueP else falseP))) (some p) (.arr (ys ++ [if b then Val.tru else .fls])) F' := by
  subst hi
  have := setIndexValue_arr g (ys.length : Nat) (bool_good g.inv b) (by simp)
  rwa [arrPut_len] at this

theorem lo32_setLo32 (c : BitVec 64) (x : F32) : (setLo32 c x).setWidth 32 = x := by
  unfold setLo32
  ext i hi
  simp
  grind

theorem mirrors_bool (b : Bool) : MirrorsSc (.bool b) (if b then Val.tru else .fls) := by cases b <;> simp [MirrorsSc]

theorem blank_binary {h : Heap} {q : Ptr} {x : BitVec 64} {F : List Ptr} (g : Good h (some q) (blankVal .binary x) F) (h5 : 5 ≤ q) (b : Bytes) :
    Upd h F (setBinary h q b) (some q) (.bin 0 b) [q] := by
  have hdt := rep_dt g.rep
  have hdt : (h.mem q).dt = .binary := hdt
  obtain ⟨q', hq, -, hl⟩ := g.rep
  cases hq
  rw [view_ge h5] at hl
  simp only [leafOf, hdt, blankVal, Option.some.injEq, Val.bin.injEq] at hl
  unfold setBinary
  rw [hdt]
  exact write_leaf g rfl h5 rfl (by simp [leafOf, hdt, hl.1])

theorem scKey_upd (s : Sc) {h : Heap} {p : Ptr} {ku : Bool} {ms : List (Bytes × Val)} {F : List Ptr} (g : Good h (some p) (.obj ku ms) F) (op : Open ku ms)
    {name : Bytes} (hn : Fresh E ms name) (c : Option CId) (hc : ∀ d, c = some d → d < h.nextC) :
    ∃ h' w F', scKey E h p name c s = .ok h' ∧ Upd h F h' (some p) (.obj true (ms ++ [(name, w)])) F' ∧ MirrorsSc s w := by
  cases s with
  | bool b =>
    obtain ⟨F', u⟩ := key_bool g op hn b
    exact ⟨_, _, F', rfl, u, mirrors_bool b⟩
  | int x | uint x =>
    obtain ⟨q, h1, w, he, h5, -, Fq, gq, hu⟩ := key_then g op hn .int c hc
    obtain ⟨e, u, -⟩ := setInt_upd gq h5 x
    obtain ⟨F', u'⟩ := hu _ _ _ u
    exact ⟨_, _, F', by simp only [scKey, he, Res.bind_ok], u', ⟨e, rfl⟩⟩
  | str x =>
    obtain ⟨q, h1, w, he, h5, -, Fq, gq, hu⟩ := key_then g op hn .string c hc
    obtain ⟨F', u'⟩ := hu _ _ _ (setString_upd gq h5 x)
    exact ⟨_, _, F', by simp only [scKey, he, Res.bind_ok], u', rfl⟩
  | f32 x =>
    obtain ⟨q, h1, w, he, h5, -, Fq, gq, hu⟩ := key_then g op hn .float c hc
    obtain ⟨cc, u⟩ := setFloat_upd gq h5 x
    obtain ⟨F', u'⟩ := hu _ _ _ u
    exact ⟨_, _, F', by simp only [scKey, he, Res.bind_ok], u', ⟨_, rfl, lo32_setLo32 _ _⟩⟩
  | f64 x =>
    obtain ⟨q, h1, w, he, h5, ⟨y, rfl⟩, Fq, gq, hu⟩ := key_then g op hn .double c hc
    obtain ⟨F', u'⟩ := hu _ _ _ (setDouble_upd gq h5 x)
    exact ⟨_, _, F', by simp only [scKey, he, Res.bind_ok], u', rfl⟩

theorem rscKey_upd (fld : Bool) (s : Sc) (hf : fld = true → ∀ x, s ≠ .uint x) {h : Heap} {p : Ptr} {ku : Bool} {ms : List (Bytes × Val)} {F : List Ptr}
    (g : Good h (some p) (.obj ku ms) F) (op : Open ku ms) {name : Bytes} (hn : Fresh E ms name) (c : Option CId) (hc : ∀ d, c = some d → d < h.nextC) :
    ∃ h' w F', rscKey E h p name c fld s = .ok h' ∧ Upd h F h' (some p) (.obj true (ms ++ [(name, w)])) F' ∧ MirrorsSc s w := by
  cases s with
  | bool b =>
    obtain ⟨F', u⟩ := key_bool g op hn b
    exact ⟨_, _, F', rfl, u, mirrors_bool b⟩
  | int x =>
    obtain ⟨q, h1, w, he, h5, -, Fq, gq, hu⟩ := key_then g op hn .int c hc
    obtain ⟨e, u, -⟩ := setInt_upd gq h5 x
    obtain ⟨F', u'⟩ := hu _ _ _ u
    exact ⟨_, _, F', by simp only [rscKey, he, Res.bind_ok], u', ⟨e, rfl⟩⟩
  | uint x =>
    cases fld with
    | true => exact absurd rfl (hf rfl x)
    | false =>
      obtain ⟨q, h1, w, he, h5, -, Fq, gq, hu⟩ := key_then g op hn .int c hc
      obtain ⟨e, u, -⟩ := setInt_upd gq h5 x
      obtain ⟨F', u'⟩ := hu _ _ _ u
      exact ⟨_, _, F', by simp only [rscKey, he, Res.bind_ok]; rfl, u', ⟨e, rfl⟩⟩
  | str x =>
    obtain ⟨q, h1, w, he, h5, -, Fq, gq, hu⟩ := key_then g op hn .string c hc
    obtain ⟨F', u'⟩ := hu _ _ _ (setString_upd gq h5 x)
    exact ⟨_, _, F', by simp only [rscKey, he, Res.bind_ok], u', rfl⟩
  | f32 x =>
    obtain ⟨q, h1, w, he, h5, -, Fq, gq, hu⟩ := key_then g op hn .double c hc
    obtain ⟨cc, u⟩ := setFloat_upd gq h5 x
    obtain ⟨F', u'⟩ := hu _ _ _ u
    exact ⟨_, _, F', by simp only [rscKey, he, Res.bind_ok], u', ⟨_, rfl, lo32_setLo32 _ _⟩⟩
  | f64 x =>
    obtain ⟨q, h1, w, he, h5, ⟨y, rfl⟩, Fq, gq, hu⟩ := key_then g op hn .double c hc
    obtain ⟨F', u'⟩ := hu _ _ _ (setDouble_upd gq h5 x)
    exact ⟨_, _, F', by simp only [rscKey, he, Res.bind_ok], u', rfl⟩

theorem scIdx_upd (s : Sc) {h : Heap} {p : Ptr} {ys : List Val} {F : List Ptr} (g : Good h (some p) (.arr ys) F) {i : Nat} (hi : i = ys.length)
    (c : Option CId) (hc : ∀ d, c = some d → d < h.nextC) :
    ∃ w F', Upd h F (scIdx h p i c s) (some p) (.arr (ys ++ [w])) F' ∧ MirrorsSc s w := by
  cases s with
  | bool b =>
    obtain ⟨F', u⟩ := idx_bool g hi b
    exact ⟨_, F', u, mirrors_bool b⟩
  | int x | uint x =>
    obtain ⟨w, Fq, -, gq, h5, hu⟩ := idx_then g hi .int c hc
    obtain ⟨e, u, -⟩ := setInt_upd gq (h5 rfl) x
    obtain ⟨F', u'⟩ := hu _ _ _ u
    exact ⟨_, F', u', ⟨e, rfl⟩⟩
  | str x =>
    obtain ⟨w, Fq, -, gq, h5, hu⟩ := idx_then g hi .string c hc
    obtain ⟨F', u'⟩ := hu _ _ _ (setString_upd gq (h5 rfl) x)
    exact ⟨_, F', u', rfl⟩
  | f32 x =>
    obtain ⟨w, Fq, -, gq, h5, hu⟩ := idx_then g hi .float c hc
    obtain ⟨cc, u⟩ := setFloat_upd gq (h5 rfl) x
    obtain ⟨F', u'⟩ := hu _ _ _ u
    exact ⟨_, F', u', ⟨_, rfl, lo32_setLo32 _ _⟩⟩
  | f64 x =>
    obtain ⟨w, Fq, ⟨y, rfl⟩, gq, h5, hu⟩ := idx_then g hi .double c hc
    obtain ⟨F', u'⟩ := hu _ _ _ (setDouble_upd gq (h5 rfl) x)
    exact ⟨_, F', u', rfl⟩

/-! ## The walk -/

mutual
/-- Mirrors, in the order in which maps handed out their entries. -/
def Exact : Go → Val → Prop
  | .nil, v => v = .null
  | .sc s, v => MirrorsSc s v
  | .named s, v => MirrorsSc s v
  | .time x, v => v = .dateTime x
  | .bytes b, v => v = .bin 0 b
  | .map kvs, v => ∃ ku ms, v = .obj ku ms ∧ (ku = true ∨ ms = []) ∧ ExactM kvs ms
  | .slice xs, v => ∃ ys, v = .arr ys ∧ ExactL xs ys
  | .rmap kvs, v => ∃ ku ms, v = .obj ku ms ∧ (ku = true ∨ ms = []) ∧ ExactM kvs ms
  | .rslice xs, v => ∃ ys, v = .arr ys ∧ ExactL xs ys
  | .struct fs, v => ∃ ku ms, v = .obj ku ms ∧ (ku = true ∨ ms = []) ∧ ExactM fs ms
  | .nilPtr _, v => v = .null
  | .other, _ => False
/-- Entry by entry. -/
def ExactM : List (Bytes × Go) → List (Bytes × Val) → Prop
  | [], ms => ms = []
  | (k, g) :: kvs, ms => ∃ w ws, ms = (k, w) :: ws ∧ Exact g w ∧ ExactM kvs ws
/-- The elements, one by one. -/
def ExactL : List Go → List Val → Prop
  | [], ys => ys = []
  | g :: xs, ys => ∃ w ws, ys = w :: ws ∧ Exact g w ∧ ExactL xs ws
end

mutual
theorem Exact.mirrors : ∀ (g : Go) {v : Val}, Exact g v → Mirrors g v
  | .nil, _, h | .sc _, _, h | .named _, _, h | .time _, _, h | .bytes _, _, h | .nilPtr _, _, h => h
  | .other, _, h => h.elim
  | .map kvs, _, h => by obtain ⟨ku, ms, e, op, m⟩ := h; exact ⟨ku, ms, e, op, ExactM.keys kvs m ▸ .refl _, ExactM.mirrors kvs m⟩
  | .rmap kvs, _, h => by obtain ⟨ku, ms, e, op, m⟩ := h; exact ⟨ku, ms, e, op, ExactM.keys kvs m ▸ .refl _, ExactM.mirrors kvs m⟩
  | .struct kvs, _, h => by obtain ⟨ku, ms, e, op, m⟩ := h; exact ⟨ku, ms, e, op, ExactM.keys kvs m ▸ .refl _, ExactM.mirrors kvs m⟩
  | .slice xs, _, h => by obtain ⟨ys, e, m⟩ := h; exact ⟨ys, e, ExactL.mirrors xs m⟩
  | .rslice xs, _, h => by obtain ⟨ys, e, m⟩ := h; exact ⟨ys, e, ExactL.mirrors xs m⟩
theorem ExactM.keys : ∀ (kvs : List (Bytes × Go)) {ms : List (Bytes × Val)}, ExactM kvs ms → ms.map Prod.fst = kvs.map Prod.fst
  | [], _, h => by cases h; rfl
  | (k, g) :: kvs, _, h => by obtain ⟨w, ws, rfl, -, h2⟩ := h; simp [ExactM.keys kvs h2]
theorem ExactM.mirrors : ∀ (kvs : List (Bytes × Go)) {ms : List (Bytes × Val)}, ExactM kvs ms → MirrorsM kvs ms
  | [], _, _ => trivial
  | (k, g) :: kvs, _, h => by
    obtain ⟨w, ws, rfl, h1, h2⟩ := h
    refine ⟨⟨w, List.mem_cons_self, Exact.mirrors g h1⟩, ?_⟩
    have m := ExactM.mirrors kvs h2
    rw [mirrorsM_iff] at m ⊢
    intro kv hkv
    obtain ⟨w, a, b⟩ := m kv hkv
    exact ⟨w, List.mem_cons_of_mem _ a, b⟩
theorem ExactL.mirrors : ∀ (xs : List Go) {ys : List Val}, ExactL xs ys → MirrorsL xs ys
  | [], _, h => h
  | g :: xs, _, h => by
    obtain ⟨w, ws, rfl, h1, h2⟩ := h
    exact ⟨w, ws, rfl, Exact.mirrors g h1, ExactL.mirrors xs h2⟩
end

theorem fresh_snoc {ms : List (Bytes × Val)} {k k' : Bytes} {w : Val} (h1 : Fresh E ms k') (h2 : E.keyMatch k k' = false) : Fresh E (ms ++ [(k, w)]) k' := by
  intro kv hkv
  rcases List.mem_append.1 hkv with hm | hm
  · exact h1 kv hm
  · simp at hm; subst hm; exact h2

/-- The names still to come are new after the first one has been stored. -/
theorem fresh_next {ms : List (Bytes × Val)} {k : Bytes} {g : Go} {w : Val} {kvs : List (Bytes × Go)} (hd : Assoc.Distinct E.keyMatch ((k, g) :: kvs))
    (hm : ∀ kv ∈ (k, g) :: kvs, Fresh E ms kv.1) : Assoc.Distinct E.keyMatch kvs ∧ ∀ kv ∈ kvs, Fresh E (ms ++ [(k, w)]) kv.1 := by
  simp only [Assoc.Distinct, List.map_cons, List.pairwise_cons] at hd
  exact ⟨hd.2, fun kv hkv => fresh_snoc (hm kv (List.mem_cons_of_mem _ hkv)) (hd.1 _ (List.mem_map_of_mem hkv))⟩

theorem fresh_nil (k : Bytes) : Fresh E ([] : List (Bytes × Val)) k := by intro kv h; cases h

mutual
theorem setKeyvalue_upd (g : Go) (hf : Fair E g) {h : Heap} {p : Ptr} {ku : Bool} {ms : List (Bytes × Val)} {F : List Ptr}
    (gd : Good h (some p) (.obj ku ms) F) (op : Open ku ms) {name : Bytes} (hn : Fresh E ms name) (c : Option CId) (hc : ∀ d, c = some d → d < h.nextC) :
    ∃ h' w F', setKeyvalue E h p name c g = .ok h' ∧ Upd h F h' (some p) (.obj true (ms ++ [(name, w)])) F' ∧ Exact g w := by
  have key := fun t q h1 e => lt_st (gd.inv.setKeyCached_st (X := Any) E p name t c hc (fun _ _ => trivial) (fun _ _ => trivial) (q := q) (h' := h1) e) hc
  cases g with
  | nil | named _ | nilPtr _ | other => exact absurd hf (by simp [Fair])
  | sc s => exact scKey_upd s gd op hn c hc
  | time x =>
    obtain ⟨q, h1, w, he, h5, ⟨y, rfl⟩, Fq, gq, hu⟩ := key_then gd op hn .dateTime c hc
    obtain ⟨F', u'⟩ := hu _ _ _ (setDouble_upd gq h5 x)
    exact ⟨_, _, F', by simp only [setKeyvalue, he, Res.bind_ok], u', rfl⟩
  | bytes b =>
    obtain ⟨q, h1, w, he, h5, ⟨y, rfl⟩, Fq, gq, hu⟩ := key_then gd op hn .binary c hc
    obtain ⟨F', u'⟩ := hu _ _ _ (blank_binary gq h5 b)
    exact ⟨_, _, F', by simp only [setKeyvalue, he, Res.bind_ok], u', rfl⟩
  | map kvs =>
    obtain ⟨q, h1, w, he, h5, ⟨y, rfl⟩, Fq, gq, hu⟩ := key_then gd op hn .object c hc
    obtain ⟨h2, ku', ms', F2, e2, u2, op2, pr⟩ := setKeys_upd kvs hf.2 hf.1 (gd := gq) (Or.inr rfl) (fun _ _ => fresh_nil _) c (key _ _ _ he)
    obtain ⟨F', u'⟩ := hu _ _ _ u2
    exact ⟨_, _, F', by simp only [setKeyvalue, he, Res.bind_ok]; exact e2, u', ⟨_, _, rfl, op2, pr⟩⟩
  | slice xs =>
    obtain ⟨q, h1, w, he, h5, ⟨y, rfl⟩, Fq, gq, hu⟩ := key_then gd op hn .array c hc
    obtain ⟨h2, ys, F2, e2, u2, pr⟩ := setItems_upd xs hf (gd := gq) (i := 0) rfl c (key _ _ _ he)
    obtain ⟨F', u'⟩ := hu _ _ _ u2
    exact ⟨_, _, F', by simp only [setKeyvalue, he, Res.bind_ok]; exact e2, u', ⟨_, rfl, pr⟩⟩
  | rmap kvs =>
    cases kvs with
    | nil => exact absurd rfl hf.1
    | cons kv kvs =>
      obtain ⟨q, h1, w, he, h5, ⟨y, rfl⟩, Fq, gq, hu⟩ := key_then gd op hn .object c hc
      obtain ⟨h2, ku', ms', F2, e2, u2, op2, pr⟩ :=
        setFields_upd (kv :: kvs) false hf.2.2 hf.2.1 (gd := gq) (Or.inr rfl) (fun _ _ => fresh_nil _) c (key _ _ _ he)
      obtain ⟨F', u'⟩ := hu _ _ _ u2
      exact ⟨_, _, F', by simp only [setKeyvalue, he, Res.bind_ok]; exact e2, u', ⟨_, _, rfl, op2, pr⟩⟩
  | rslice xs =>
    obtain ⟨q, h1, w, he, h5, ⟨y, rfl⟩, Fq, gq, hu⟩ := key_then gd op hn .array c hc
    obtain ⟨h2, ys, F2, e2, u2, pr⟩ := setRItems_upd xs hf (gd := gq) (i := 0) rfl c (key _ _ _ he)
    obtain ⟨F', u'⟩ := hu _ _ _ u2
    exact ⟨_, _, F', by simp only [setKeyvalue, he, Res.bind_ok]; exact e2, u', ⟨_, rfl, pr⟩⟩
  | struct fs =>
    obtain ⟨q, h1, w, he, h5, ⟨y, rfl⟩, Fq, gq, hu⟩ := key_then gd op hn .object c hc
    obtain ⟨h2, ku', ms', F2, e2, u2, op2, pr⟩ := setFields_upd fs true hf.2 hf.1 (gd := gq) (Or.inr rfl) (fun _ _ => fresh_nil _) c (key _ _ _ he)
    obtain ⟨F', u'⟩ := hu _ _ _ u2
    exact ⟨_, _, F', by simp only [setKeyvalue, he, Res.bind_ok]; exact e2, u', ⟨_, _, rfl, op2, pr⟩⟩
theorem setIndexvalue_upd (g : Go) (hf : Fair E g) {h : Heap} {p : Ptr} {ys : List Val} {F : List Ptr}
    (gd : Good h (some p) (.arr ys) F) {i : Nat} (hi : i = ys.length) (c : Option CId) (hc : ∀ d, c = some d → d < h.nextC) :
    ∃ h' w F', setIndexvalue E h p i c g = .ok h' ∧ Upd h F h' (some p) (.arr (ys ++ [w])) F' ∧ Exact g w := by
  have key := fun t => lt_st (gd.inv.setIndexCached_st (X := Any) p i t c hc (fun _ _ => trivial)) hc
  cases g with
  | nil | named _ | nilPtr _ | other => exact absurd hf (by simp [Fair])
  | sc s =>
    obtain ⟨w, F', u, m⟩ := scIdx_upd s gd hi c hc
    exact ⟨_, w, F', rfl, u, m⟩
  | time x =>
    obtain ⟨w, Fq, ⟨y, rfl⟩, gq, h5, hu⟩ := idx_then gd hi .dateTime c hc
    obtain ⟨F', u'⟩ := hu _ _ _ (setDouble_upd gq (h5 rfl) x)
    exact ⟨_, _, F', by simp only [setIndexvalue], u', rfl⟩
  | bytes b =>
    obtain ⟨w, Fq, ⟨y, rfl⟩, gq, h5, hu⟩ := idx_then gd hi .binary c hc
    obtain ⟨F', u'⟩ := hu _ _ _ (blank_binary gq (h5 rfl) b)
    exact ⟨_, _, F', by simp only [setIndexvalue], u', rfl⟩
  | map kvs =>
    obtain ⟨w, Fq, ⟨y, rfl⟩, gq, h5, hu⟩ := idx_then gd hi .object c hc
    obtain ⟨h2, ku', ms', F2, e2, u2, op2, pr⟩ := setKeys_upd kvs hf.2 hf.1 (gd := gq) (Or.inr rfl) (fun _ _ => fresh_nil _) c (key _)
    obtain ⟨F', u'⟩ := hu _ _ _ u2
    exact ⟨_, _, F', by simp only [setIndexvalue]; exact e2, u', ⟨_, _, rfl, op2, pr⟩⟩
  | slice xs =>
    obtain ⟨w, Fq, ⟨y, rfl⟩, gq, h5, hu⟩ := idx_then gd hi .array c hc
    obtain ⟨h2, ys, F2, e2, u2, pr⟩ := setItems_upd xs hf (gd := gq) (i := 0) rfl c (key _)
    obtain ⟨F', u'⟩ := hu _ _ _ u2
    exact ⟨_, _, F', by simp only [setIndexvalue]; exact e2, u', ⟨_, rfl, pr⟩⟩
  | rmap kvs =>
    cases kvs with
    | nil => exact absurd rfl hf.1
    | cons kv kvs =>
      obtain ⟨w, Fq, ⟨y, rfl⟩, gq, h5, hu⟩ := idx_then gd hi .object c hc
      obtain ⟨h2, ku', ms', F2, e2, u2, op2, pr⟩ :=
        setFields_upd (kv :: kvs) false hf.2.2 hf.2.1 (gd := gq) (Or.inr rfl) (fun _ _ => fresh_nil _) c (key _)
      obtain ⟨F', u'⟩ := hu _ _ _ u2
      exact ⟨_, _, F', by simp only [setIndexvalue]; exact e2, u', ⟨_, _, rfl, op2, pr⟩⟩
  | rslice xs =>
    obtain ⟨w, Fq, ⟨y, rfl⟩, gq, h5, hu⟩ := idx_then gd hi .array c hc
    obtain ⟨h2, ys, F2, e2, u2, pr⟩ := setRItems_upd xs hf (gd := gq) (i := 0) rfl c (key _)
    obtain ⟨F', u'⟩ := hu _ _ _ u2
    exact ⟨_, _, F', by simp only [setIndexvalue]; exact e2, u', ⟨_, rfl, pr⟩⟩
  | struct fs =>
    obtain ⟨w, Fq, ⟨y, rfl⟩, gq, h5, hu⟩ := idx_then gd hi .object c hc
    obtain ⟨h2, ku', ms', F2, e2, u2, op2, pr⟩ := setFields_upd fs true hf.2 hf.1 (gd := gq) (Or.inr rfl) (fun _ _ => fresh_nil _) c (key _)
    obtain ⟨F', u'⟩ := hu _ _ _ u2
    exact ⟨_, _, F', by simp only [setIndexvalue]; exact e2, u', ⟨_, _, rfl, op2, pr⟩⟩
theorem setKeys_upd (kvs : List (Bytes × Go)) (hf : FairM E kvs) (hd : Assoc.Distinct E.keyMatch kvs) {h : Heap} {p : Ptr} {ku : Bool}
    {ms : List (Bytes × Val)} {F : List Ptr} (gd : Good h (some p) (.obj ku ms) F) (op : Open ku ms) (hm : ∀ kv ∈ kvs, Fresh E ms kv.1)
    (c : Option CId) (hc : ∀ d, c = some d → d < h.nextC) :
    ∃ h' ku' ms' F', setKeys E h p c kvs = .ok h' ∧ Upd h F h' (some p) (.obj ku' (ms ++ ms')) F' ∧ Open ku' (ms ++ ms') ∧ ExactM kvs ms' := by
  match kvs with
  | [] => exact ⟨h, ku, [], F, rfl, by simpa using gd.upd_refl, by simpa using op, rfl⟩
  | (k, g) :: kvs =>
    obtain ⟨h1, w, F1, e1, u1, m1⟩ := setKeyvalue_upd g hf.1 gd op (hm (k, g) List.mem_cons_self) c hc
    have s1 := setKeyvalue_st g gd.inv p k c hc e1
    obtain ⟨hd2, hm2⟩ := fresh_next (w := w) hd hm
    obtain ⟨h2, ku2, ms2, F2, e2, u2, op2, pr⟩ := setKeys_upd kvs hf.2 hd2 u1.good (Or.inl rfl) hm2 c (lt_st s1 hc)
    rw [List.append_assoc] at u2 op2
    exact ⟨h2, ku2, (k, w) :: ms2, F2, by simp only [setKeys, e1, Res.bind_ok]; exact e2, UpdX.trans u1 u2, op2, w, ms2, rfl, m1, pr⟩
theorem setItems_upd (xs : List Go) (hf : FairL E xs) {h : Heap} {p : Ptr} {ys : List Val} {F : List Ptr}
    (gd : Good h (some p) (.arr ys) F) {i : Nat} (hi : i = ys.length) (c : Option CId) (hc : ∀ d, c = some d → d < h.nextC) :
    ∃ h' ys' F', setItems E h p c i xs = .ok h' ∧ Upd h F h' (some p) (.arr (ys ++ ys')) F' ∧ ExactL xs ys' := by
  match xs with
  | [] => exact ⟨h, [], F, rfl, by simpa using gd.upd_refl, rfl⟩
  | g :: xs =>
    obtain ⟨h1, w, F1, e1, u1, m1⟩ := setIndexvalue_upd g hf.1 gd hi c hc
    have s1 := setIndexvalue_st g gd.inv p i c hc e1
    obtain ⟨h2, ys2, F2, e2, u2, pr⟩ := setItems_upd xs hf.2 u1.good (i := i + 1) (by simp [hi]) c (lt_st s1 hc)
    rw [List.append_assoc] at u2
    exact ⟨h2, w :: ys2, F2, by simp only [setItems, e1, Res.bind_ok]; exact e2, UpdX.trans u1 u2, w, ys2, rfl, m1, pr⟩
theorem setRItems_upd (xs : List Go) (hf : FairR E xs) {h : Heap} {p : Ptr} {ys : List Val} {F : List Ptr}
    (gd : Good h (some p) (.arr ys) F) {i : Nat} (hi : i = ys.length) (c : Option CId) (hc : ∀ d, c = some d → d < h.nextC) :
    ∃ h' ys' F', setRItems E h p c i xs = .ok h' ∧ Upd h F h' (some p) (.arr (ys ++ ys')) F' ∧ ExactL xs ys' := by
  match xs with
  | [] => exact ⟨h, [], F, rfl, by simpa using gd.upd_refl, rfl⟩
  | g :: xs =>
    have one : ∃ h1 w F1, rItem E h p c i g = .ok h1 ∧ Upd h F h1 (some p) (.arr (ys ++ [w])) F1 ∧ Exact g w ∧ Step Any h h1 := by
      rcases hf.1 with ⟨b, rfl⟩ | hg
      · obtain ⟨w, Fq, ⟨y, rfl⟩, gq, -, hu⟩ := idx_then gd hi .null c hc
        obtain ⟨F1, u1⟩ := hu _ _ _ gq.upd_refl
        exact ⟨_, _, F1, rfl, u1, rfl, gd.inv.setIndexCached_st p i _ c hc (fun _ _ => trivial)⟩
      · obtain ⟨h1, w, F1, e1, u1, m1⟩ := setIndexvalue_upd g hg gd hi c hc
        refine ⟨h1, w, F1, ?_, u1, m1, setIndexvalue_st g gd.inv p i c hc e1⟩
        unfold rItem
        split
        · exact absurd hg (by simp [Fair])
        · exact e1
    obtain ⟨h1, w, F1, e1, u1, m1, s1⟩ := one
    obtain ⟨h2, ys2, F2, e2, u2, pr⟩ := setRItems_upd xs hf.2 u1.good (i := i + 1) (by simp [hi]) c (lt_st s1 hc)
    rw [List.append_assoc] at u2
    exact ⟨h2, w :: ys2, F2, by rw [setRItems_cons, e1]; exact e2, UpdX.trans u1 u2, w, ys2, rfl, m1, pr⟩
theorem setFields_upd (fs : List (Bytes × Go)) (fld : Bool) (hf : FairF E fld fs) (hd : Assoc.Distinct E.keyMatch fs) {h : Heap} {p : Ptr} {ku : Bool}
    {ms : List (Bytes × Val)} {F : List Ptr} (gd : Good h (some p) (.obj ku ms) F) (op : Open ku ms) (hm : ∀ kv ∈ fs, Fresh E ms kv.1)
    (c : Option CId) (hc : ∀ d, c = some d → d < h.nextC) :
    ∃ h' ku' ms' F', setFields E h p c fld fs = .ok h' ∧ Upd h F h' (some p) (.obj ku' (ms ++ ms')) F' ∧ Open ku' (ms ++ ms') ∧ ExactM fs ms' := by
  match fs with
  | [] => exact ⟨h, ku, [], F, rfl, by simpa using gd.upd_refl, by simpa using op, rfl⟩
  | (k, g) :: fs =>
    have hk := hm (k, g) List.mem_cons_self
    have one : ∃ h1 w F1, field E h p c fld k g = .ok h1 ∧ Upd h F h1 (some p) (.obj true (ms ++ [(k, w)])) F1 ∧ Exact g w ∧ Step Any h h1 := by
      rcases hf.1 with ⟨s, rfl, hs⟩ | ⟨hg, hs⟩
      · obtain ⟨h1, w, F1, e1, u1, m1⟩ := rscKey_upd fld s hs gd op hk c hc
        exact ⟨h1, w, F1, e1, u1, m1, rscKey_st gd.inv p k c hc fld s e1⟩
      · unfold field
        split
        · rename_i s
          obtain ⟨h1, w, F1, e1, u1, m1⟩ := rscKey_upd fld s (fun hb x e => hs hb x (by rw [e])) gd op hk c hc
          exact ⟨h1, w, F1, e1, u1, m1, rscKey_st gd.inv p k c hc fld s e1⟩
        · exact absurd hg (by simp [Fair])
        · exact absurd hg (by simp [Fair])
        · obtain ⟨h1, w, F1, e1, u1, m1⟩ := setKeyvalue_upd g hg gd op hk c hc
          exact ⟨h1, w, F1, e1, u1, m1, setKeyvalue_st g gd.inv p k c hc e1⟩
    obtain ⟨h1, w, F1, e1, u1, m1, s1⟩ := one
    obtain ⟨hd2, hm2⟩ := fresh_next (w := w) hd hm
    obtain ⟨h2, ku2, ms2, F2, e2, u2, op2, pr⟩ := setFields_upd fs fld hf.2 hd2 u1.good (Or.inl rfl) hm2 c (lt_st s1 hc)
    rw [List.append_assoc] at u2 op2
    exact ⟨h2, ku2, (k, w) :: ms2, F2, by rw [setFields_cons, e1]; exact e2, UpdX.trans u1 u2, op2, w, ms2, rfl, m1, pr⟩
end

/-- The data that `SetValue` itself stores: not a time, not a `[]byte`. -/
def FairRoot (E : Env) (g : Go) : Prop := Fair E g ∧ (∀ x, g ≠ .time x) ∧ (∀ b, g ≠ .bytes b)

theorem setValue_upd (g : Go) (hf : FairRoot E g) {h : Heap} {p : Ptr} {v : Val} {F : List Ptr} (gd : Good h (some p) v F) (h5 : 5 ≤ p)
    (ht : v.vt ≠ .dateTime) :
    ∃ h' w F', setValue E h p g = .ok h' ∧ Upd h F h' (some p) w F' ∧ Exact g w := by
  have hs : ¬ shared p = true := by rw [shared_iff]; omega
  unfold setValue
  rw [if_neg hs]
  have ho := fun t d (hd : ((reset h p t).mem p).owner = some d) => (reset_upd gd h5 t).good.inv.owner p d hd
  cases g with
  | nil | named _ | nilPtr _ | other => exact absurd hf.1 (by simp [Fair])
  | time x => exact absurd rfl (hf.2.1 x)
  | bytes b => exact absurd rfl (hf.2.2 b)
  | sc s =>
    cases s with
    | int x | uint x => obtain ⟨e, u, -⟩ := setInt_upd gd h5 x; exact ⟨_, _, _, rfl, u, e, rfl⟩
    | str x => exact ⟨_, _, _, rfl, setString_upd gd h5 x, rfl⟩
    | bool b => exact ⟨_, _, _, rfl, setBool_upd gd h5 b, mirrors_bool b⟩
    | f32 x => obtain ⟨c, u⟩ := setFloat_upd gd h5 x; exact ⟨_, _, _, rfl, u, _, rfl, lo32_setLo32 _ _⟩
    | f64 x => exact ⟨_, _, _, rfl, setDouble_upd gd h5 x, by rw [if_neg ht]; rfl⟩
  | map kvs =>
    have u1 := reset_upd gd h5 .object
    obtain ⟨h2, ku', ms', F2, e2, u2, op2, pr⟩ := setKeys_upd kvs hf.1.2 hf.1.1 (gd := u1.good) (Or.inr rfl) (fun _ _ => fresh_nil _) _ (ho _)
    exact ⟨h2, _, F2, e2, UpdX.trans u1 u2, ⟨_, _, rfl, op2, pr⟩⟩
  | slice xs =>
    have u1 := reset_upd gd h5 .array
    obtain ⟨h2, ys, F2, e2, u2, pr⟩ := setItems_upd xs hf.1 (gd := u1.good) (i := 0) rfl _ (ho _)
    exact ⟨h2, _, F2, e2, UpdX.trans u1 u2, ⟨_, rfl, pr⟩⟩
  | rmap kvs =>
    cases kvs with
    | nil => exact absurd rfl hf.1.1
    | cons kv kvs =>
      have u1 := reset_upd gd h5 .object
      obtain ⟨h2, ku', ms', F2, e2, u2, op2, pr⟩ :=
        setFields_upd (kv :: kvs) false hf.1.2.2 hf.1.2.1 (gd := u1.good) (Or.inr rfl) (fun _ _ => fresh_nil _) _ (ho _)
      exact ⟨h2, _, F2, e2, UpdX.trans u1 u2, ⟨_, _, rfl, op2, pr⟩⟩
  | rslice xs =>
    have u1 := reset_upd gd h5 .array
    obtain ⟨h2, ys, F2, e2, u2, pr⟩ := setRItems_upd xs hf.1 (gd := u1.good) (i := 0) rfl _ (ho _)
    exact ⟨h2, _, F2, e2, UpdX.trans u1 u2, ⟨_, rfl, pr⟩⟩
  | struct fs =>
    have u1 := reset_upd gd h5 .object
    obtain ⟨h2, ku', ms', F2, e2, u2, op2, pr⟩ := setFields_upd fs true hf.1.2 hf.1.1 (gd := u1.good) (Or.inr rfl) (fun _ _ => fresh_nil _) _ (ho _)
    exact ⟨h2, _, F2, e2, UpdX.trans u1 u2, ⟨_, _, rfl, op2, pr⟩⟩

end Dxs.Reflect
