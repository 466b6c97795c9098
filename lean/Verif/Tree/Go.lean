import Verif.Tree.Det
import Verif.Reflect.Proof

/-!
# Go data on trees

What `SetValue`, `SetKeyvalue` and `SetIndexvalue` make of any Go data and any tree: all the cases of reflect_parse.go, those that
store nothing or panic included. The functions `goKey`, `goIdx`, …, `goVal` know no memory and no caches.
-/

namespace Dxs.Reflect
open Dxs.Heap

/-! ## The functions -/

/-- Something happens to the member under a name, which gets type `t` first. -/
def keyT (E : Env) (v : Val) (k : Bytes) (t : VT) (f : Val → Res Val) : Res Val :=
  if asIndex E k v = false ∧ oldName E v k = some .nil then .panic
  else do let x ← f (slotOf t 0 (oldName E v k)); .ok (putName E v k x)

/-- Something happens to the element at an index, which gets type `t` first. -/
def idxT (v : Val) (i : Int) (t : VT) (f : Val → Res Val) : Res Val := do
  let x ← f (slotOf t 0 (arrOld (arrOf v) i)); .ok (arrPut (arrOf v) i x)

/-- A Bool. -/
def boolVal (b : Bool) : Val := if b then .tru else .fls

/-- `scKey` on trees. -/
def scKeyT (E : Env) (v : Val) (k : Bytes) : Sc → Res Val
  | .int x | .uint x => keyT E v k .int ((Mut.setInt x).onTree E 0)
  | .str s => keyT E v k .string ((Mut.setString s).onTree E 0)
  | .bool b => .ok (putName E v k (boolVal b))
  | .f32 x => keyT E v k .float ((Mut.setFloat x).onTree E 0)
  | .f64 x => keyT E v k .double ((Mut.setDouble x).onTree E 0)

/-- `rscKey` on trees. -/
def rscKeyT (E : Env) (v : Val) (k : Bytes) (fld : Bool) : Sc → Res Val
  | .int x => keyT E v k .int ((Mut.setInt x).onTree E 0)
  | .uint x => keyT E v k .int fun w => if fld then .panic else (Mut.setInt x).onTree E 0 w
  | .str s => keyT E v k .string ((Mut.setString s).onTree E 0)
  | .bool b => .ok (putName E v k (boolVal b))
  | .f32 x => keyT E v k .double ((Mut.setFloat x).onTree E 0)
  | .f64 x => keyT E v k .double ((Mut.setDouble x).onTree E 0)

/-- `scIdx` on trees. -/
def scIdxT (E : Env) (v : Val) (i : Int) : Sc → Res Val
  | .int x | .uint x => idxT v i .int ((Mut.setInt x).onTree E 0)
  | .str s => idxT v i .string ((Mut.setString s).onTree E 0)
  | .bool b => .ok (arrPut (arrOf v) i (boolVal b))
  | .f32 x => idxT v i .float ((Mut.setFloat x).onTree E 0)
  | .f64 x => idxT v i .double ((Mut.setDouble x).onTree E 0)

mutual
/-- `SetKeyvalue` on trees. -/
def goKey (E : Env) (v : Val) (k : Bytes) : Go → Res Val
  | .nil => .ok v
  | .sc s => scKeyT E v k s
  | .named _ => .ok v
  | .time x => keyT E v k .dateTime ((Mut.setDouble x).onTree E 0)
  | .bytes b => keyT E v k .binary ((Mut.setBinary b).onTree E 0)
  | .map kvs => keyT E v k .object fun w => goKeys E w kvs
  | .slice xs => keyT E v k .array fun w => goItems E w 0 xs
  | .rmap [] => .ok v
  | .rmap (kv :: kvs) => keyT E v k .object fun w => goFields E w false (kv :: kvs)
  | .rslice xs => keyT E v k .array fun w => goRItems E w 0 xs
  | .struct fs => keyT E v k .object fun w => goFields E w true fs
  | .nilPtr basic => if basic then .panic else .ok v
  | .other => .ok v
/-- `SetIndexvalue` on trees. -/
def goIdx (E : Env) (v : Val) (i : Nat) : Go → Res Val
  | .nil => .ok v
  | .sc s => scIdxT E v i s
  | .named _ => .ok v
  | .time x => idxT v i .dateTime ((Mut.setDouble x).onTree E 0)
  | .bytes b => idxT v i .binary ((Mut.setBinary b).onTree E 0)
  | .map kvs => idxT v i .object fun w => goKeys E w kvs
  | .slice xs => idxT v i .array fun w => goItems E w 0 xs
  | .rmap [] => .ok v
  | .rmap (kv :: kvs) => idxT v i .object fun w => goFields E w false (kv :: kvs)
  | .rslice xs => idxT v i .array fun w => goRItems E w 0 xs
  | .struct fs => idxT v i .object fun w => goFields E w true fs
  | .nilPtr _ => .panic
  | .other => .ok v
/-- The entries of a map. -/
def goKeys (E : Env) (v : Val) : List (Bytes × Go) → Res Val
  | [] => .ok v
  | (k, g) :: kvs => do let v ← goKey E v k g; goKeys E v kvs
/-- The elements of a slice. -/
def goItems (E : Env) (v : Val) (i : Nat) : List Go → Res Val
  | [] => .ok v
  | g :: xs => do let v ← goIdx E v i g; goItems E v (i + 1) xs
/-- The elements of a slice of another type. -/
def goRItems (E : Env) (v : Val) (i : Nat) : List Go → Res Val
  | [] => .ok v
  | g :: xs => do
    let v ← (match g with
      | .nilPtr _ => idxT v i .null .ok
      | g => goIdx E v i g)
    goRItems E v (i + 1) xs
/-- The fields of a struct, or the entries of a map of another type. -/
def goFields (E : Env) (v : Val) (fld : Bool) : List (Bytes × Go) → Res Val
  | [] => .ok v
  | (k, g) :: fs => do
    let v ← (match g with
      | .sc s => rscKeyT E v k fld s
      | .named s => rscKeyT E v k fld s
      | .nilPtr _ => .panic
      | g => goKey E v k g)
    goFields E v fld fs
end

/-- `SetValue` on trees. -/
def goVal (E : Env) (v : Val) : Go → Res Val
  | .nil => .ok v
  | .sc (.int x) | .sc (.uint x) => (Mut.setInt x).onTree E 0 v
  | .sc (.str s) => (Mut.setString s).onTree E 0 v
  | .sc (.bool b) => (Mut.setBool b).onTree E 0 v
  | .sc (.f32 x) => (Mut.setFloat x).onTree E 0 v
  | .sc (.f64 x) => (Mut.setDouble x).onTree E 0 v
  | .named _ => .ok v
  | .time x => (Mut.setDouble x).onTree E 0 v
  | .bytes b => (Mut.setBinary b).onTree E 0 v
  | .map kvs => goKeys E (.obj false []) kvs
  | .slice xs => goItems E (.arr []) 0 xs
  | .rmap [] => .ok v
  | .rmap (kv :: kvs) => goFields E (.obj false []) false (kv :: kvs)
  | .rslice xs => goRItems E (.arr []) 0 xs
  | .struct fs => goFields E (.obj false []) true fs
  | .nilPtr basic => if basic then .panic else .ok v
  | .other => .ok v

/-! ## The memory behaves like that -/

/-- The outcome in memory is the one on trees. -/
def Does (h : Heap) (F : List Ptr) (p : Ptr) (t : Res Val) : Res Heap → Prop
  | .ok h' => ∃ w w0 F', t = .ok w0 ∧ canon w = canon w0 ∧ Upd h F h' (some p) w F'
  | .panic => t = .panic
  | _ => False

section
variable {E : Env} {h : Heap} {p : Ptr} {v v0 : Val} {F : List Ptr}

theorem Does.same (g : Good h (some p) v F) (hv : canon v = canon v0) : Does h F p (.ok v0) (.ok h) := ⟨v, v0, F, rfl, hv, g.upd_refl⟩

theorem Does.bind {t : Res Val} {r : Res Heap} {f : Val → Res Val} {k : Heap → Res Heap} (d : Does h F p t r)
    (hk : ∀ h' w w0 F', r = .ok h' → Good h' (some p) w F' → canon w = canon w0 → Does h' F' p (f w0) (k h')) : Does h F p (t >>= f) (r >>= k) := by
  match r, d with
  | .ok h', ⟨w, w0, F', e, hc, u⟩ =>
    subst e
    have d := hk h' w w0 F' rfl u.good hc
    show Does h F p (f w0) (k h')
    generalize k h' = r2 at d
    match r2, d with
    | .ok h2, ⟨w2, w02, F2, e2, hc2, u2⟩ => exact ⟨w2, w02, F2, e2, hc2, UpdX.trans u u2⟩
    | .panic, d => exact d
  | .panic, d => rw [show t = .panic from d]; rfl

theorem setIndexCached_handsX (g : Good h (some p) v F) (h5 : 5 ≤ p) (idx : Int) (t : VT) (c : Option CId) (hc : ∀ d, c = some d → d < h.nextC) :
    HandsX h F p t (arrOld (arrOf v) idx) (arrPut (arrOf v) idx) (setIndexCached h p idx t c).1 (setIndexCached h p idx t c).2 := by
  obtain ⟨F0, u⟩ := toArrX g h5
  obtain ⟨hd, -⟩ := arr_first h h5
  have hc : ∀ d, c = some d → d < (if (h.mem p).dt = .array then h else reset h p .array).nextC := by
    intro d hd
    split
    · exact hc d hd
    · rw [reset_nextC]; exact hc d hd
  have e : setIndexCached h p idx t c = setIndexCached (if (h.mem p).dt = .array then h else reset h p .array) p idx t c := by
    unfold setIndexCached
    simp only [hd, if_true]
  rw [e]
  generalize (if (h.mem p).dt = .array then h else reset h p .array) = h0 at u hc
  obtain ⟨w, F1, u1, hk, hs, h51⟩ := setIndexCached_arr u.good idx t c hc
  obtain ⟨b, Fq, hb, gq, -, hupd⟩ := u1.good.kid (kids_arrPut (arrOf v) idx w)
  rw [hk] at hb
  cases hb
  obtain ⟨x, rfl⟩ := Slot.iff.1 hs
  refine HandsX.after ⟨x, Fq, gq, h51, ?_⟩ u
  intro h2 w' Fq' u2
  obtain ⟨F', u3⟩ := hupd [] h2 w' Fq' u2 (by simp)
  rw [setKid_arrPut] at u3
  exact ⟨F', UpdX.trans u1 u3⟩

theorem setKeyCached_handsX (g : Good h (some p) v F) (h5 : 5 ≤ p) (k : Bytes) (t : VT) (c : Option CId) (hc : ∀ d, c = some d → d < h.nextC) :
    match setKeyCached E h p k t c with
    | .ok (q, h1) => HandsX h F p t (oldName E v k) (putName E v k) q h1 ∧ ¬ (asIndex E k v = false ∧ oldName E v k = some .nil)
    | .panic => asIndex E k v = false ∧ oldName E v k = some .nil
    | _ => False := by
  have hdt := rep_dt g.rep
  by_cases ha : (h.mem p).dt = .array ∧ strIdx E k ≠ -1
  · have e' : setKeyCached E h p k t c = .ok (setIndex h p (strIdx E k) t) := by
      unfold setKeyCached; rw [if_pos ha]
    obtain ⟨xs, rfl⟩ := vt_arr (hdt.symm.trans ha.1) (rep_ne_nil g.rep)
    have hb : asIndex E k (.arr xs) = true := by simp [asIndex, ha.2]
    have := setIndex_handsX g h5 (strIdx E k) t
    rw [e']
    have e1 : oldName E (.arr xs) k = arrOld (arrOf (.arr xs)) (strIdx E k) := by simp only [oldName, hb, if_true]
    have e2 : putName E (.arr xs) k = arrPut (arrOf (.arr xs)) (strIdx E k) := by funext w; simp only [putName, hb, if_true]
    dsimp only
    rw [e1, e2]
    exact ⟨this, by simp [hb]⟩
  · obtain ⟨F0, u⟩ := toObjX g h5
    obtain ⟨hd, -⟩ := obj_first h h5
    have hb : asIndex E k v = false := by
      cases v <;> simp_all [asIndex, Val.vt]
    have e1 : oldName E v k = objOld E (objOf v).1 (objOf v).2 k := by simp only [oldName, hb]; rfl
    have e2 : putName E v k = objPut E (objOf v).1 (objOf v).2 k := by funext w; simp only [putName, hb]; rfl
    have hc : ∀ d, c = some d → d < (if (h.mem p).dt = .object then h else reset h p .object).nextC := by
      intro d hd
      split
      · exact hc d hd
      · rw [reset_nextC]; exact hc d hd
    have e' : setKeyCached E h p k t c = setKeyCached E (if (h.mem p).dt = .object then h else reset h p .object) p k t c := by
      by_cases hb : (h.mem p).dt = .object
      · rw [if_pos hb]
      · rw [if_neg hb] at hd ⊢
        unfold setKeyCached
        have h3 : ¬ (((reset h p .object).mem p).dt = .array ∧ strIdx E k ≠ -1) := by rw [hd]; simp
        simp only [if_neg ha, if_neg h3, if_neg hb, if_pos hd]
    rw [e', e1, e2]
    generalize (if (h.mem p).dt = .object then h else reset h p .object) = h0 at u hc
    generalize (objOf v).1 = ku at u ⊢
    generalize (objOf v).2 = kvs at u ⊢
    by_cases hnil : objOld E ku kvs k = some .nil
    · rw [setKeyCached_nil E u.good k t _ hnil]
      exact ⟨hb, hnil⟩
    · obtain ⟨q, h1, w, F1, he, u1, hk, h51, hs⟩ := setKeyCached_obj E u.good k t c hc hnil
      obtain ⟨b, Fq, hb, gq, -, hupd⟩ := u1.good.kid (kids_objPut E ku kvs k w)
      rw [hk] at hb
      cases hb
      rw [he]
      obtain ⟨x, rfl⟩ := Slot.iff.1 hs
      refine ⟨HandsX.after ⟨x, Fq, gq, fun _ => h51, ?_⟩ u, fun h => hnil h.2⟩
      intro h2 w' Fq' u2
      obtain ⟨F', u3⟩ := hupd [] h2 w' Fq' u2 (by simp)
      rw [setKid_objPut] at u3
      exact ⟨F', UpdX.trans u1 u3⟩

/-- What is done to a slot. -/
def OnSlot (t : VT) (c : Option CId) (f : Val → Res Val) (k : Ptr → Heap → Res Heap) : Prop :=
  ∀ h1 q x old old0 G, 5 ≤ q → old.map canon = old0.map canon → (∀ d, c = some d → d < h1.nextC) → Good h1 (some q) (slotOf t x old) G → Does h1 G q (f (slotOf t 0 old0)) (k q h1)

theorem oldName_like (hv : canon v = canon v0) (k : Bytes) : (oldName E v k).map canon = (oldName E v0 k).map canon := by
  rw [← oldName_canon, ← oldName_canon, hv]

theorem some_nil {a b : Option Val} (h : a.map canon = b.map canon) : a = some .nil ↔ b = some .nil := by
  cases a <;> cases b <;> simp at h ⊢
  rw [← canon_nil, h, canon_nil]

theorem asIndex_like (hv : canon v = canon v0) (k : Bytes) : asIndex E k v = asIndex E k v0 := by
  rw [← asIndex_canon, ← asIndex_canon E k v0, hv]

theorem putName_like (hv : canon v = canon v0) (k : Bytes) {w w0 : Val} (hw : canon w = canon w0) : canon (putName E v k w) = canon (putName E v0 k w0) := by
  rw [canon_putName, canon_putName, hv, hw]

theorem arrPut_like (hv : canon v = canon v0) (i : Int) {w w0 : Val} (hw : canon w = canon w0) : canon (arrPut (arrOf v) i w) = canon (arrPut (arrOf v0) i w0) := by
  rw [canon_arrPut, canon_arrPut, ← arrOf_canon, ← arrOf_canon, hv, hw]

theorem key_does (g : Good h (some p) v F) (h5 : 5 ≤ p) (hv : canon v = canon v0) (k : Bytes) (t : VT) (ht : (constOf t).isNone) (c : Option CId) (hc : ∀ d, c = some d → d < h.nextC)
    {f : Val → Res Val} {K : Ptr → Heap → Res Heap} (s : OnSlot t c f K) :
    Does h F p (keyT E v0 k t f) (do let (q, h) ← setKeyCached E h p k t c; K q h) := by
  have a := setKeyCached_handsX (E := E) g h5 k t c hc
  have st := fun q h1 e => lt_st (g.inv.setKeyCached_st (X := Any) E p k t c hc (fun _ _ => trivial) (fun _ _ => trivial) (q := q) (h' := h1) e) hc
  unfold keyT
  rw [← asIndex_like hv]
  have hn := some_nil (oldName_like (E := E) hv k)
  generalize setKeyCached E h p k t c = r at a st
  match r, a with
  | .ok (q, h1), ⟨⟨x, Fq, gq, hq, hu⟩, ha⟩ =>
    rw [if_neg (by rw [← hn]; exact ha)]
    have d := s h1 q x _ _ Fq (hq ht) (oldName_like hv k) (st q h1 rfl) gq
    show Does h F p _ (K q h1)
    generalize K q h1 = r2 at d
    match r2, d with
    | .ok h2, ⟨w, w0, F', e, hcw, u⟩ =>
      obtain ⟨F2, u2⟩ := hu _ _ _ u
      exact ⟨_, _, F2, by rw [e]; rfl, putName_like hv k hcw, u2⟩
    | .panic, d => show _ = _; rw [show f _ = .panic from d]; rfl
  | .panic, a =>
    rw [if_pos (by rw [← hn]; exact a)]
    rfl

theorem idx_does (g : Good h (some p) v F) (h5 : 5 ≤ p) (hv : canon v = canon v0) (i : Int) (t : VT) (ht : (constOf t).isNone) (c : Option CId) (hc : ∀ d, c = some d → d < h.nextC)
    {f : Val → Res Val} {K : Ptr → Heap → Res Heap} (s : OnSlot t c f K) :
    Does h F p (idxT v0 i t f) (K (setIndexCached h p i t c).1 (setIndexCached h p i t c).2) := by
  obtain ⟨x, Fq, gq, hq, hu⟩ := setIndexCached_handsX g h5 i t c hc
  have st := lt_st (g.inv.setIndexCached_st (X := Any) p i t c hc (fun _ _ => trivial)) hc
  have ho : (arrOld (arrOf v) i).map canon = (arrOld (arrOf v0) i).map canon := by
    rw [← arrOld_canon, ← arrOld_canon, ← arrOf_canon, ← arrOf_canon, hv]
  have d := s _ _ x _ _ Fq (hq ht) ho st gq
  unfold idxT
  generalize K (setIndexCached h p i t c).1 (setIndexCached h p i t c).2 = r2 at d
  match r2, d with
  | .ok h2, ⟨w, w0, F', e, hcw, u⟩ =>
    obtain ⟨F2, u2⟩ := hu _ _ _ u
    exact ⟨_, _, F2, by rw [e]; rfl, arrPut_like hv i hcw, u2⟩
  | .panic, d => show _ = _; rw [show f _ = .panic from d]; rfl

theorem canonR_ok {a b : Res Val} {w : Val} (e : canonR a = canonR b) (ha : a = .ok w) : ∃ w0, b = .ok w0 ∧ canon w = canon w0 := by
  subst ha
  cases b <;> simp [canonR] at e
  exact ⟨_, rfl, e⟩

/-- One of the setters, when it shows nothing of the memory. -/
theorem mut_does (m : Mut) (g : Good h (some p) v F) (h5 : 5 ≤ p) (hd : ∀ x, canonR (m.onTree E x v) = canonR (m.onTree E 0 v0)) : Does h F p (m.onTree E 0 v0) (m.run E h p) := by
  have a := Mut.exact (E := E) g h5 m
  generalize m.run E h p = r at a
  match r, a with
  | .ok h', ⟨x, w, F', e, u⟩ =>
    obtain ⟨w0, e0, hc⟩ := canonR_ok (hd x) e
    exact ⟨w, w0, F', e0, hc, u⟩
  | .panic, a =>
    have := hd 0
    have a0 : m.onTree E 0 v = .panic := a 0
    rw [a0] at this
    show _ = _
    cases e : m.onTree E 0 v0 <;> rw [e] at this <;> simp [canonR] at this ⊢

theorem slot_like {t : VT} (hn : numeric t = false) {x : BitVec 64} {old old0 : Option Val} (ho : old.map canon = old0.map canon) : canon (slotOf t x old) = canon (slotOf t 0 old0) := by
  rw [← canon_slotOf, ho, canon_slotOf, slotOf_sure (Or.inl hn) x 0]

theorem slot_int {e x y : BitVec 64} {old old0 : Option Val} (ho : old.map canon = old0.map canon) : intInto x (slotOf .int y old) = intInto x (slotOf .int e old0) := by
  rw [intInto_slot, intInto_slot x e]
  have h := congrArg (intInto x) (canon_slotOf .int 0 old)
  have h0 := congrArg (intInto x) (canon_slotOf .int 0 old0)
  rw [← canon_intInto, ← canon_intInto] at h h0
  rw [ho] at h
  have hh := h.symm.trans h0
  have : ∀ w : Val, canon (intInto x w) = intInto x w := by intro w; cases w <;> rfl
  rw [this, this] at hh
  exact hh

theorem slot_setInt (c : Option CId) (x : BitVec 64) : OnSlot .int c ((Mut.setInt x).onTree E 0) (fun q h => .ok (setInt h q x)) := by
  intro h1 q y old old0 G hq ho _ g
  refine mut_does (.setInt x) g hq fun z => ?_
  simp only [Mut.onTree, canonR]
  rw [slot_int ho]

theorem slot_setString (c : Option CId) (x : Bytes) : OnSlot .string c ((Mut.setString x).onTree E 0) (fun q h => .ok (setString h q x)) := by
  intro h1 q y old old0 G hq ho _ g
  exact mut_does (.setString x) g hq fun z => rfl

theorem slot_setFloat (t : VT) (c : Option CId) (x : F32) : OnSlot t c ((Mut.setFloat x).onTree E 0) (fun q h => .ok (setFloat h q x)) := by
  intro h1 q y old old0 G hq ho _ g
  refine mut_does (.setFloat x) g hq fun z => ?_
  simp only [Mut.onTree, canonR, canon_float_set]

theorem slot_setDouble (t : VT) (c : Option CId) (x : F64) : OnSlot t c ((Mut.setDouble x).onTree E 0) (fun q h => .ok (setDouble h q x)) := by
  intro h1 q y old old0 G hq ho _ g
  refine mut_does (.setDouble x) g hq fun z => ?_
  simp only [Mut.onTree, (slotOf_vt t _ _).1]

theorem slot_setBinary (c : Option CId) (b : Bytes) : OnSlot .binary c ((Mut.setBinary b).onTree E 0) (fun q h => .ok (setBinary h q b)) := by
  intro h1 q y old old0 G hq ho _ g
  refine mut_does (.setBinary b) g hq fun z => ?_
  rw [Mut.det E (.setBinary b) z 0 _ rfl, Mut.det E (.setBinary b) 0 0 (slotOf .binary 0 old0) rfl, slot_like rfl ho]

theorem boolKey_does (g : Good h (some p) v F) (h5 : 5 ≤ p) (hv : canon v = canon v0) (k : Bytes) (b : Bool) :
    Does h F p (.ok (putName E v0 k (boolVal b))) (.ok (setKeyValue E h p k (some (if b then trueP else falseP)))) := by
  have a := mut_does (E := E) (v0 := v0) (.setKeyBool k b) g h5 fun x => by
    simp only [Mut.onTree, canonR, canon_putName, hv]
  exact a

theorem boolIdx_does (g : Good h (some p) v F) (h5 : 5 ≤ p) (hv : canon v = canon v0) (i : Int) (b : Bool) :
    Does h F p (.ok (arrPut (arrOf v0) i (boolVal b))) (.ok (setIndexValue h p i (some (if b then trueP else falseP)))) := by
  obtain ⟨F', u⟩ := setIndexValue_exact g h5 i (bool_good g.inv b) (by simp)
  exact ⟨_, _, F', rfl, arrPut_like hv i rfl, u⟩

theorem scKey_does (s : Sc) (g : Good h (some p) v F) (h5 : 5 ≤ p) (hv : canon v = canon v0) (k : Bytes) (c : Option CId) (hc : ∀ d, c = some d → d < h.nextC) :
    Does h F p (scKeyT E v0 k s) (scKey E h p k c s) := by
  cases s with
  | int x | uint x => exact key_does g h5 hv k .int rfl c hc (slot_setInt c x)
  | str x => exact key_does g h5 hv k .string rfl c hc (slot_setString c x)
  | bool b => exact boolKey_does g h5 hv k b
  | f32 x => exact key_does g h5 hv k .float rfl c hc (slot_setFloat .float c x)
  | f64 x => exact key_does g h5 hv k .double rfl c hc (slot_setDouble .double c x)

theorem rscKey_does (s : Sc) (fld : Bool) (g : Good h (some p) v F) (h5 : 5 ≤ p) (hv : canon v = canon v0) (k : Bytes) (c : Option CId) (hc : ∀ d, c = some d → d < h.nextC) :
    Does h F p (rscKeyT E v0 k fld s) (rscKey E h p k c fld s) := by
  cases s with
  | int x => exact key_does g h5 hv k .int rfl c hc (slot_setInt c x)
  | uint x =>
    refine key_does (E := E) (f := fun w => if fld then .panic else (Mut.setInt x).onTree E 0 w) (K := fun q h => if fld then .panic else .ok (setInt h q x)) g h5 hv k .int rfl c hc ?_
    cases fld
    · exact slot_setInt (E := E) c x
    · intro h1 q y old old0 G hq ho _ g
      rfl
  | str x => exact key_does g h5 hv k .string rfl c hc (slot_setString c x)
  | bool b => exact boolKey_does g h5 hv k b
  | f32 x => exact key_does g h5 hv k .double rfl c hc (slot_setFloat .double c x)
  | f64 x => exact key_does g h5 hv k .double rfl c hc (slot_setDouble .double c x)

theorem scIdx_does (s : Sc) (g : Good h (some p) v F) (h5 : 5 ≤ p) (hv : canon v = canon v0) (i : Nat) (c : Option CId) (hc : ∀ d, c = some d → d < h.nextC) :
    Does h F p (scIdxT E v0 i s) (.ok (scIdx h p i c s)) := by
  cases s with
  | int x | uint x => exact idx_does g h5 hv i .int rfl c hc (slot_setInt c x)
  | str x => exact idx_does g h5 hv i .string rfl c hc (slot_setString c x)
  | bool b => exact boolIdx_does g h5 hv i b
  | f32 x => exact idx_does g h5 hv i .float rfl c hc (slot_setFloat .float c x)
  | f64 x => exact idx_does g h5 hv i .double rfl c hc (slot_setDouble .double c x)

theorem null_does (g : Good h (some p) v F) (h5 : 5 ≤ p) (hv : canon v = canon v0) (i : Nat) (c : Option CId) (hc : ∀ d, c = some d → d < h.nextC) :
    Does h F p (idxT v0 i .null .ok) (.ok (setIndexCached h p i .null c).2) := by
  obtain ⟨x, Fq, gq, -, hu⟩ := setIndexCached_handsX g h5 i .null c hc
  have ho : (arrOld (arrOf v) i).map canon = (arrOld (arrOf v0) i).map canon := by
    rw [← arrOld_canon, ← arrOld_canon, ← arrOf_canon, ← arrOf_canon, hv]
  obtain ⟨F2, u2⟩ := hu _ _ _ gq.upd_refl
  exact ⟨_, _, F2, rfl, arrPut_like hv i (slot_like rfl ho), u2⟩

end

section
variable {E : Env}

theorem goRItems_cons (v : Val) (i : Nat) (g : Go) (xs : List Go) :
    goRItems E v i (g :: xs) = (match g with | .nilPtr _ => idxT v i .null .ok | g => goIdx E v i g) >>= fun v => goRItems E v (i + 1) xs := by
  cases g <;> rfl

theorem goFields_cons (v : Val) (fld : Bool) (k : Bytes) (g : Go) (fs : List (Bytes × Go)) :
    goFields E v fld ((k, g) :: fs) = (match g with | .sc s => rscKeyT E v k fld s | .named s => rscKeyT E v k fld s | .nilPtr _ => .panic | g => goKey E v k g) >>= fun v => goFields E v fld fs := by
  cases g <;> rfl

mutual
theorem goKey_does (d : Go) {h : Heap} {p : Ptr} {v v0 : Val} {F : List Ptr} (g : Good h (some p) v F) (h5 : 5 ≤ p) (hv : canon v = canon v0) (k : Bytes) (c : Option CId)
    (hc : ∀ d, c = some d → d < h.nextC) : Does h F p (goKey E v0 k d) (setKeyvalue E h p k c d) := by
  match d with
  | .nil => simp only [goKey, setKeyvalue]; exact .same g hv
  | .named _ => simp only [goKey, setKeyvalue]; exact .same g hv
  | .other => simp only [goKey, setKeyvalue]; exact .same g hv
  | .sc s => simp only [goKey, setKeyvalue]; exact scKey_does s g h5 hv k c hc
  | .time x => simp only [goKey, setKeyvalue]; exact key_does g h5 hv k .dateTime rfl c hc (slot_setDouble .dateTime c x)
  | .bytes b => simp only [goKey, setKeyvalue]; exact key_does g h5 hv k .binary rfl c hc (slot_setBinary c b)
  | .map kvs =>
    simp only [goKey, setKeyvalue]
    exact key_does (K := fun q h => setKeys E h q c kvs) g h5 hv k .object rfl c hc fun h1 q y old old0 G hq ho hc g => goKeys_does kvs g hq (slot_like rfl ho) c hc
  | .slice xs =>
    simp only [goKey, setKeyvalue]
    exact key_does (K := fun q h => setItems E h q c 0 xs) g h5 hv k .array rfl c hc fun h1 q y old old0 G hq ho hc g => goItems_does xs 0 g hq (slot_like rfl ho) c hc
  | .rmap [] => simp only [goKey, setKeyvalue]; exact .same g hv
  | .rmap (kv :: kvs) =>
    simp only [goKey, setKeyvalue]
    exact key_does (K := fun q h => setFields E h q c false (kv :: kvs)) g h5 hv k .object rfl c hc fun h1 q y old old0 G hq ho hc g => goFields_does (kv :: kvs) false g hq (slot_like rfl ho) c hc
  | .rslice xs =>
    simp only [goKey, setKeyvalue]
    exact key_does (K := fun q h => setRItems E h q c 0 xs) g h5 hv k .array rfl c hc fun h1 q y old old0 G hq ho hc g => goRItems_does xs 0 g hq (slot_like rfl ho) c hc
  | .struct fs =>
    simp only [goKey, setKeyvalue]
    exact key_does (K := fun q h => setFields E h q c true fs) g h5 hv k .object rfl c hc fun h1 q y old old0 G hq ho hc g => goFields_does fs true g hq (slot_like rfl ho) c hc
  | .nilPtr basic =>
    simp only [goKey, setKeyvalue]
    cases basic
    · exact .same g hv
    · exact rfl
theorem goIdx_does (d : Go) {h : Heap} {p : Ptr} {v v0 : Val} {F : List Ptr} (g : Good h (some p) v F) (h5 : 5 ≤ p) (hv : canon v = canon v0) (i : Nat) (c : Option CId)
    (hc : ∀ d, c = some d → d < h.nextC) : Does h F p (goIdx E v0 i d) (setIndexvalue E h p i c d) := by
  match d with
  | .nil => simp only [goIdx, setIndexvalue]; exact .same g hv
  | .named _ => simp only [goIdx, setIndexvalue]; exact .same g hv
  | .other => simp only [goIdx, setIndexvalue]; exact .same g hv
  | .sc s => simp only [goIdx, setIndexvalue]; exact scIdx_does s g h5 hv i c hc
  | .time x => simp only [goIdx, setIndexvalue]; exact idx_does g h5 hv i .dateTime rfl c hc (slot_setDouble .dateTime c x)
  | .bytes b => simp only [goIdx, setIndexvalue]; exact idx_does g h5 hv i .binary rfl c hc (slot_setBinary c b)
  | .map kvs =>
    simp only [goIdx, setIndexvalue]
    exact idx_does (K := fun q h => setKeys E h q c kvs) g h5 hv i .object rfl c hc fun h1 q y old old0 G hq ho hc g => goKeys_does kvs g hq (slot_like rfl ho) c hc
  | .slice xs =>
    simp only [goIdx, setIndexvalue]
    exact idx_does (K := fun q h => setItems E h q c 0 xs) g h5 hv i .array rfl c hc fun h1 q y old old0 G hq ho hc g => goItems_does xs 0 g hq (slot_like rfl ho) c hc
  | .rmap [] => simp only [goIdx, setIndexvalue]; exact .same g hv
  | .rmap (kv :: kvs) =>
    simp only [goIdx, setIndexvalue]
    exact idx_does (K := fun q h => setFields E h q c false (kv :: kvs)) g h5 hv i .object rfl c hc fun h1 q y old old0 G hq ho hc g => goFields_does (kv :: kvs) false g hq (slot_like rfl ho) c hc
  | .rslice xs =>
    simp only [goIdx, setIndexvalue]
    exact idx_does (K := fun q h => setRItems E h q c 0 xs) g h5 hv i .array rfl c hc fun h1 q y old old0 G hq ho hc g => goRItems_does xs 0 g hq (slot_like rfl ho) c hc
  | .struct fs =>
    simp only [goIdx, setIndexvalue]
    exact idx_does (K := fun q h => setFields E h q c true fs) g h5 hv i .object rfl c hc fun h1 q y old old0 G hq ho hc g => goFields_does fs true g hq (slot_like rfl ho) c hc
  | .nilPtr basic => simp only [goIdx, setIndexvalue]; exact rfl
theorem goKeys_does (kvs : List (Bytes × Go)) {h : Heap} {p : Ptr} {v v0 : Val} {F : List Ptr} (g : Good h (some p) v F) (h5 : 5 ≤ p) (hv : canon v = canon v0) (c : Option CId)
    (hc : ∀ d, c = some d → d < h.nextC) : Does h F p (goKeys E v0 kvs) (setKeys E h p c kvs) := by
  match kvs with
  | [] => simp only [goKeys, setKeys]; exact .same g hv
  | (k, d) :: kvs =>
    simp only [goKeys, setKeys]
    exact (goKey_does d g h5 hv k c hc).bind fun h' w w0 F' e g' hw => goKeys_does kvs g' h5 hw c (lt_st (setKeyvalue_st d g.inv p k c hc e) hc)
theorem goItems_does (xs : List Go) (i : Nat) {h : Heap} {p : Ptr} {v v0 : Val} {F : List Ptr} (g : Good h (some p) v F) (h5 : 5 ≤ p) (hv : canon v = canon v0) (c : Option CId)
    (hc : ∀ d, c = some d → d < h.nextC) : Does h F p (goItems E v0 i xs) (setItems E h p c i xs) := by
  match xs with
  | [] => simp only [goItems, setItems]; exact .same g hv
  | d :: xs =>
    simp only [goItems, setItems]
    exact (goIdx_does d g h5 hv i c hc).bind fun h' w w0 F' e g' hw => goItems_does xs (i + 1) g' h5 hw c (lt_st (setIndexvalue_st d g.inv p i c hc e) hc)
theorem goRItems_does (xs : List Go) (i : Nat) {h : Heap} {p : Ptr} {v v0 : Val} {F : List Ptr} (g : Good h (some p) v F) (h5 : 5 ≤ p) (hv : canon v = canon v0) (c : Option CId)
    (hc : ∀ d, c = some d → d < h.nextC) : Does h F p (goRItems E v0 i xs) (setRItems E h p c i xs) := by
  match xs with
  | [] => simp only [goRItems, setRItems]; exact .same g hv
  | d :: xs =>
    rw [goRItems_cons, setRItems_cons]
    have st : ∀ h', rItem E h p c i d = .ok h' → Step Any h h' := by
      intro h' e1
      unfold rItem at e1
      split at e1
      · cases e1
        exact g.inv.setIndexCached_st p i _ c hc (fun _ _ => trivial)
      · exact setIndexvalue_st d g.inv p i c hc e1
    refine Does.bind ?_ fun h' w w0 F' e g' hw => goRItems_does xs (i + 1) g' h5 hw c (lt_st (st h' e) hc)
    have one := goIdx_does d g h5 hv i c hc
    unfold rItem
    cases d with
    | nilPtr b => exact null_does g h5 hv i c hc
    | _ => exact one
theorem goFields_does (fs : List (Bytes × Go)) (fld : Bool) {h : Heap} {p : Ptr} {v v0 : Val} {F : List Ptr} (g : Good h (some p) v F) (h5 : 5 ≤ p) (hv : canon v = canon v0) (c : Option CId)
    (hc : ∀ d, c = some d → d < h.nextC) : Does h F p (goFields E v0 fld fs) (setFields E h p c fld fs) := by
  match fs with
  | [] => simp only [goFields, setFields]; exact .same g hv
  | (k, d) :: fs =>
    rw [goFields_cons, setFields_cons]
    have st : ∀ h', field E h p c fld k d = .ok h' → Step Any h h' := by
      intro h' e1
      unfold field at e1
      split at e1
      · exact rscKey_st g.inv p k c hc fld _ e1
      · exact rscKey_st g.inv p k c hc fld _ e1
      · simp at e1
      · exact setKeyvalue_st d g.inv p k c hc e1
    refine Does.bind ?_ fun h' w w0 F' e g' hw => goFields_does fs fld g' h5 hw c (lt_st (st h' e) hc)
    have one := goKey_does d g h5 hv k c hc
    unfold field
    cases d with
    | sc s => exact rscKey_does s fld g h5 hv k c hc
    | named s => exact rscKey_does s fld g h5 hv k c hc
    | nilPtr b => exact rfl
    | _ => exact one
end

theorem Does.after {h h1 : Heap} {p : Ptr} {w : Val} {F F1 : List Ptr} {q : Res Val} {r : Res Heap} (u : Upd h F h1 (some p) w F1) (d : Does h1 F1 p q r) : Does h F p q r := by
  match r, d with
  | .ok h', ⟨w, w0, F', e, hc, u'⟩ => exact ⟨w, w0, F', e, hc, UpdX.trans u u'⟩
  | .panic, d => exact d

/-- `SetValue`, for all data and all values. -/
theorem goVal_does (d : Go) {h : Heap} {p : Ptr} {v v0 : Val} {F : List Ptr} (g : Good h (some p) v F) (h5 : 5 ≤ p) (hv : canon v = canon v0) : Does h F p (goVal E v0 d) (setValue E h p d) := by
  have hs : ¬ shared p = true := by rw [shared_iff]; omega
  unfold setValue
  rw [if_neg hs]
  have ho := fun t d (hd : ((reset h p t).mem p).owner = some d) => (reset_upd g h5 t).good.inv.owner p d hd
  have det : ∀ (m : Mut), m.sure E v = true → m.sure E v0 = true → Does h F p (m.onTree E 0 v0) (m.run E h p) := fun m h1 h2 =>
    mut_does m g h5 fun x => by rw [Mut.det E m x 0 v h1, Mut.det E m 0 0 v0 h2, hv]
  match d with
  | .nil | .named _ | .other => exact .same g hv
  | .sc (.int x) | .sc (.uint x) => exact det (.setInt x) rfl rfl
  | .sc (.str x) => exact det (.setString x) rfl rfl
  | .sc (.bool x) => exact det (.setBool x) rfl rfl
  | .sc (.f32 x) => exact det (.setFloat x) rfl rfl
  | .sc (.f64 x) => exact det (.setDouble x) rfl rfl
  | .time x => exact det (.setDouble x) rfl rfl
  | .bytes b => exact det (.setBinary b) rfl rfl
  | .map kvs => exact Does.after (reset_upd g h5 .object) (goKeys_does kvs (reset_upd g h5 .object).good h5 rfl _ (ho _))
  | .slice xs => exact Does.after (reset_upd g h5 .array) (goItems_does xs 0 (reset_upd g h5 .array).good h5 rfl _ (ho _))
  | .rmap [] => exact .same g hv
  | .rmap (kv :: kvs) => exact Does.after (reset_upd g h5 .object) (goFields_does (kv :: kvs) false (reset_upd g h5 .object).good h5 rfl _ (ho _))
  | .rslice xs => exact Does.after (reset_upd g h5 .array) (goRItems_does xs 0 (reset_upd g h5 .array).good h5 rfl _ (ho _))
  | .struct fs => exact Does.after (reset_upd g h5 .object) (goFields_does fs true (reset_upd g h5 .object).good h5 rfl _ (ho _))
  | .nilPtr basic =>
    cases basic
    · exact .same g hv
    · exact rfl

end

/-! ## The visible part -/

section
variable {E : Env}

/-- The same up to the unused bits of a Float. -/
def LikeF (f g : Val → Res Val) : Prop := ∀ x y, canon x = canon y → canonR (f x) = canonR (g y)

theorem canonR_bind {r r' : Res Val} {f g : Val → Res Val} (h : canonR r = canonR r') (hf : LikeF f g) : canonR (r >>= f) = canonR (r' >>= g) := by
  cases r <;> cases r' <;> simp [canonR] at h
  · exact hf _ _ h
  · subst h; rfl
  · rfl
  · rfl

theorem mut_like (m : Mut) (hm : ∀ v, m.sure E v = true) : LikeF (m.onTree E 0) (m.onTree E 0) := by
  intro x y h
  rw [Mut.det E m 0 0 x (hm x), Mut.det E m 0 0 y (hm y), h]

theorem slot0_like {t : VT} {old old0 : Option Val} (ho : old.map canon = old0.map canon) : canon (slotOf t 0 old) = canon (slotOf t 0 old0) := by
  rw [← canon_slotOf, ho, canon_slotOf]

theorem keyT_like {v v0 : Val} (hv : canon v = canon v0) (k : Bytes) (t : VT) {f g : Val → Res Val} (hf : LikeF f g) : canonR (keyT E v k t f) = canonR (keyT E v0 k t g) := by
  unfold keyT
  have hi : (asIndex E k v = false ∧ oldName E v k = some .nil) ↔ (asIndex E k v0 = false ∧ oldName E v0 k = some .nil) := by
    rw [asIndex_like hv, some_nil (oldName_like hv k)]
  by_cases hn : asIndex E k v0 = false ∧ oldName E v0 k = some .nil
  · rw [if_pos hn, if_pos (hi.2 hn)]
  · rw [if_neg hn, if_neg (fun h => hn (hi.1 h))]
    exact canonR_bind (hf _ _ (slot0_like (oldName_like hv k))) fun x y h => congrArg Res.ok (putName_like hv k h)

theorem idxT_like {v v0 : Val} (hv : canon v = canon v0) (i : Int) (t : VT) {f g : Val → Res Val} (hf : LikeF f g) : canonR (idxT v i t f) = canonR (idxT v0 i t g) := by
  unfold idxT
  refine canonR_bind (hf _ _ (slot0_like ?_)) fun x y h => congrArg Res.ok (arrPut_like hv i h)
  rw [← arrOld_canon, ← arrOld_canon, ← arrOf_canon, ← arrOf_canon, hv]

theorem same_like : LikeF .ok .ok := fun _ _ h => congrArg Res.ok h

theorem scKeyT_like (s : Sc) {v v0 : Val} (hv : canon v = canon v0) (k : Bytes) : canonR (scKeyT E v k s) = canonR (scKeyT E v0 k s) := by
  cases s with
  | int x | uint x | str x | f32 x | f64 x => exact keyT_like hv k _ (mut_like _ fun _ => rfl)
  | bool b => exact congrArg Res.ok (putName_like hv k rfl)

theorem rscKeyT_like (s : Sc) (fld : Bool) {v v0 : Val} (hv : canon v = canon v0) (k : Bytes) : canonR (rscKeyT E v k fld s) = canonR (rscKeyT E v0 k fld s) := by
  cases s with
  | int x | str x | f32 x | f64 x => exact keyT_like hv k _ (mut_like _ fun _ => rfl)
  | uint x =>
    refine keyT_like (E := E) (f := fun w => if fld then .panic else (Mut.setInt x).onTree E 0 w) (g := fun w => if fld then .panic else (Mut.setInt x).onTree E 0 w) hv k .int ?_
    cases fld
    · exact mut_like (E := E) (.setInt x) fun _ => rfl
    · exact fun _ _ _ => rfl
  | bool b => exact congrArg Res.ok (putName_like hv k rfl)

theorem scIdxT_like (s : Sc) {v v0 : Val} (hv : canon v = canon v0) (i : Int) : canonR (scIdxT E v i s) = canonR (scIdxT E v0 i s) := by
  cases s with
  | int x | uint x | str x | f32 x | f64 x => exact idxT_like hv i _ (mut_like (E := E) _ fun _ => rfl)
  | bool b => exact congrArg Res.ok (arrPut_like hv i rfl)

mutual
theorem goKey_like (d : Go) {v v0 : Val} (hv : canon v = canon v0) (k : Bytes) : canonR (goKey E v k d) = canonR (goKey E v0 k d) := by
  match d with
  | .nil | .named _ | .other | .rmap [] => simp only [goKey]; exact same_like _ _ hv
  | .sc s => simp only [goKey]; exact scKeyT_like s hv k
  | .time x => simp only [goKey]; exact keyT_like hv k _ (mut_like _ fun _ => rfl)
  | .bytes b => simp only [goKey]; exact keyT_like hv k _ (mut_like _ fun _ => rfl)
  | .map kvs => simp only [goKey]; exact keyT_like hv k _ fun _ _ h => goKeys_like kvs h
  | .slice xs => simp only [goKey]; exact keyT_like hv k _ fun _ _ h => goItems_like xs 0 h
  | .rmap (kv :: kvs) => simp only [goKey]; exact keyT_like hv k _ fun _ _ h => goFields_like (kv :: kvs) false h
  | .rslice xs => simp only [goKey]; exact keyT_like hv k _ fun _ _ h => goRItems_like xs 0 h
  | .struct fs => simp only [goKey]; exact keyT_like hv k _ fun _ _ h => goFields_like fs true h
  | .nilPtr basic =>
    simp only [goKey]
    split
    · rfl
    · exact same_like _ _ hv
theorem goIdx_like (d : Go) {v v0 : Val} (hv : canon v = canon v0) (i : Nat) : canonR (goIdx E v i d) = canonR (goIdx E v0 i d) := by
  match d with
  | .nil | .named _ | .other | .rmap [] => simp only [goIdx]; exact same_like _ _ hv
  | .sc s => simp only [goIdx]; exact scIdxT_like s hv i
  | .time x => simp only [goIdx]; exact idxT_like hv i _ (mut_like _ fun _ => rfl)
  | .bytes b => simp only [goIdx]; exact idxT_like hv i _ (mut_like _ fun _ => rfl)
  | .map kvs => simp only [goIdx]; exact idxT_like hv i _ fun _ _ h => goKeys_like kvs h
  | .slice xs => simp only [goIdx]; exact idxT_like hv i _ fun _ _ h => goItems_like xs 0 h
  | .rmap (kv :: kvs) => simp only [goIdx]; exact idxT_like hv i _ fun _ _ h => goFields_like (kv :: kvs) false h
  | .rslice xs => simp only [goIdx]; exact idxT_like hv i _ fun _ _ h => goRItems_like xs 0 h
  | .struct fs => simp only [goIdx]; exact idxT_like hv i _ fun _ _ h => goFields_like fs true h
  | .nilPtr _ => simp only [goIdx]
theorem goKeys_like (kvs : List (Bytes × Go)) {v v0 : Val} (hv : canon v = canon v0) : canonR (goKeys E v kvs) = canonR (goKeys E v0 kvs) := by
  match kvs with
  | [] => simp only [goKeys]; exact same_like _ _ hv
  | (k, d) :: kvs => simp only [goKeys]; exact canonR_bind (goKey_like d hv k) fun _ _ h => goKeys_like kvs h
theorem goItems_like (xs : List Go) (i : Nat) {v v0 : Val} (hv : canon v = canon v0) : canonR (goItems E v i xs) = canonR (goItems E v0 i xs) := by
  match xs with
  | [] => simp only [goItems]; exact same_like _ _ hv
  | d :: xs => simp only [goItems]; exact canonR_bind (goIdx_like d hv i) fun _ _ h => goItems_like xs (i + 1) h
theorem goRItems_like (xs : List Go) (i : Nat) {v v0 : Val} (hv : canon v = canon v0) : canonR (goRItems E v i xs) = canonR (goRItems E v0 i xs) := by
  match xs with
  | [] => simp only [goRItems]; exact same_like _ _ hv
  | d :: xs =>
    rw [goRItems_cons, goRItems_cons]
    refine canonR_bind ?_ fun _ _ h => goRItems_like xs (i + 1) h
    have one := goIdx_like d hv i
    cases d with
    | nilPtr b => exact idxT_like hv i _ same_like
    | _ => exact one
theorem goFields_like (fs : List (Bytes × Go)) (fld : Bool) {v v0 : Val} (hv : canon v = canon v0) : canonR (goFields E v fld fs) = canonR (goFields E v0 fld fs) := by
  match fs with
  | [] => simp only [goFields]; exact same_like _ _ hv
  | (k, d) :: fs =>
    rw [goFields_cons, goFields_cons]
    refine canonR_bind ?_ fun _ _ h => goFields_like fs fld h
    have one := goKey_like d hv k
    cases d with
    | sc s => exact rscKeyT_like s fld hv k
    | named s => exact rscKeyT_like s fld hv k
    | nilPtr b => rfl
    | _ => exact one
end

theorem goVal_like (d : Go) {v v0 : Val} (hv : canon v = canon v0) : canonR (goVal E v d) = canonR (goVal E v0 d) := by
  match d with
  | .nil | .named _ | .other | .rmap [] => exact same_like _ _ hv
  | .sc (.int x) | .sc (.uint x) => exact mut_like (E := E) (.setInt x) (fun _ => rfl) _ _ hv
  | .sc (.str x) => exact mut_like (E := E) (.setString x) (fun _ => rfl) _ _ hv
  | .sc (.bool x) => exact mut_like (E := E) (.setBool x) (fun _ => rfl) _ _ hv
  | .sc (.f32 x) => exact mut_like (E := E) (.setFloat x) (fun _ => rfl) _ _ hv
  | .sc (.f64 x) => exact mut_like (E := E) (.setDouble x) (fun _ => rfl) _ _ hv
  | .time x => exact mut_like (E := E) (.setDouble x) (fun _ => rfl) _ _ hv
  | .bytes b => exact mut_like (E := E) (.setBinary b) (fun _ => rfl) _ _ hv
  | .map _ | .slice _ | .rmap (_ :: _) | .rslice _ | .struct _ => rfl
  | .nilPtr basic =>
    simp only [goVal]
    split
    · rfl
    · exact same_like _ _ hv

/-- Data that `SetValue` stores (or panics over), whatever the value was: not nil, not `[]byte`, no empty map of another type, no pointer that is nil. -/
def Fills : Go → Bool
  | .sc _ | .time _ | .map _ | .slice _ | .rmap (_ :: _) | .rslice _ | .struct _ => true
  | .nilPtr basic => basic
  | _ => false

/-- A new value of `NewValueFrom`, cached or not. -/
theorem goVal_new {d : Go} (hd : Fills d = true) (c : BitVec 64) : goVal E (.int 0 c) d = goVal E (.obj false []) d := by
  match d, hd with
  | .sc (.int _), _ | .sc (.uint _), _ | .sc (.str _), _ | .sc (.bool true), _ | .sc (.bool false), _ | .sc (.f32 _), _ | .sc (.f64 _), _ | .time _, _ => rfl
  | .map _, _ | .slice _, _ | .rmap (_ :: _), _ | .rslice _, _ | .struct _, _ => rfl
  | .nilPtr true, _ => rfl

end

end Dxs.Reflect
