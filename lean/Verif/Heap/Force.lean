import Verif.Heap.Keys

/-!
# `ForcePath` on trees
-/

namespace Dxs.Heap

theorem set_self (h : Heap) (p : Ptr) : h.set p (h.mem p) = h := by
  unfold Heap.set
  congr
  funext q
  split
  · rename_i hq; rw [hq]
  · rfl

/-- `ValueByName` seen on the node alone: the pointer found and the node afterwards. -/
def lookupN (E : Env) (n : Node) (name : Bytes) : Option Ptr × Node :=
  match n.dt with
  | .object =>
    let r := indexByName E n.ku n.kvs name
    (r.1.bind fun i => (r.2.2[i]?).bind Prod.snd, { n with ku := r.2.1, kvs := r.2.2 })
  | .array => if inRange (strIdx E name) n.arr.length then ((n.arr[(strIdx E name).toNat]?).bind id, n) else (none, n)
  | _ => (none, n)

theorem valueByName_node (E : Env) (h : Heap) (p : Ptr) (name : Bytes) :
    valueByName E h p name = ((lookupN E (h.mem p) name).1, h.set p (lookupN E (h.mem p) name).2) := by
  unfold valueByName lookupN
  cases hd : (h.mem p).dt <;> simp only [set_self]
  · simp only [objGet, objIndex, hd, set_mem_same]
  · split <;> simp only [set_self]

/-- A lookup that finds `q` and changes nothing. -/
def Finds (E : Env) (n : Node) (name : Bytes) (q : Ptr) : Prop := lookupN E n name = (some q, n)

theorem Finds.value {E : Env} {h : Heap} {p q : Ptr} {name : Bytes} (f : Finds E (h.mem p) name q) : valueByName E h p name = (some q, h) := by
  rw [valueByName_node, f, set_self]

theorem unescKeys_true {α : Type} (E : Env) (kvs : List (Bytes × α)) : unescKeys E true kvs = kvs := by simp [unescKeys]

/-- Searching again gives the same and changes nothing. -/
theorem indexByName_idem {α : Type} (E : Env) (ku : Bool) (kvs : List (Bytes × α)) (name : Bytes) :
    indexByName E (indexByName E ku kvs name).2.1 (indexByName E ku kvs name).2.2 name = indexByName E ku kvs name := by
  have ht : ∀ zs : List (Bytes × α), indexByName E true zs name = (findKey E zs name, true, zs) := by
    intro zs; simp [indexByName, unescKeys_true]
  by_cases hc : (!ku && !(name.contains 92)) = true
  · cases hf : findKey E kvs name with
    | some i =>
      have e : indexByName E ku kvs name = (some i, ku, kvs) := by unfold indexByName; rw [if_pos hc, hf]
      rw [e, e]
    | none =>
      have e : indexByName E ku kvs name = (findKey E (unescKeys E ku kvs) name, true, unescKeys E ku kvs) := by
        unfold indexByName; rw [if_pos hc, hf]
      rw [e, ht]
  · have e : indexByName E ku kvs name = (findKey E (unescKeys E ku kvs) name, true, unescKeys E ku kvs) := by
      unfold indexByName; rw [if_neg hc]
    rw [e, ht]

/-- Searching after writing finds what was written and changes nothing. -/
theorem indexByName_put {α : Type} (E : Env) (ku : Bool) (kvs : List (Bytes × α)) (name : Bytes) (w : α) :
    indexByName E (setKeyValueObj E ku kvs name w).1 (setKeyValueObj E ku kvs name w).2 name =
      (some (objPos E ku kvs name), (setKeyValueObj E ku kvs name w).1, (setKeyValueObj E ku kvs name w).2) := by
  have hid := indexByName_idem E ku kvs name
  have hno : (indexByName E ku kvs name).1 = none → (indexByName E ku kvs name).2.1 = true := by
    intro h
    unfold indexByName at h ⊢
    split
    · split
      · rename_i hc _ i hi; rw [if_pos hc, hi] at h; cases h
      · rfl
    · rfl
  have hl := indexByName_length E ku kvs name
  have ht : ∀ zs : List (Bytes × α), indexByName E true zs name = (findKey E zs name, true, zs) := by
    intro zs; simp [indexByName, unescKeys_true]
  unfold setKeyValueObj objPos
  rcases hi : indexByName E ku kvs name with ⟨i, ku', kvs'⟩
  rw [hi] at hid hno hl
  simp only at hid hno hl
  cases i with
  | some i =>
    simp only [Option.getD_some]
    obtain ⟨h1, h2, h3⟩ := indexByName_keys E ku' (xs := kvs'.modify i (fun kv => (kv.1, w))) (ys := kvs') (modify_fst _ _ _) name
    have h4 := indexByName_snd E ku' (kvs'.modify i (fun kv => (kv.1, w))) name
    rw [hid] at h1 h2 h3
    simp only at h1 h2 h3
    rcases hj : indexByName E ku' (kvs'.modify i (fun kv => (kv.1, w))) name with ⟨j, a, b⟩
    rw [hj] at h1 h2 h3 h4
    simp only at h1 h2 h3 h4
    subst h1 h2
    have : b = kvs'.modify i (fun kv => (kv.1, w)) := by
      rw [← modify_fst kvs' i w] at h3
      apply List.ext_getElem?
      intro k
      have e1 := congrArg (·[k]?) h3
      have e2 := congrArg (·[k]?) h4
      simp only [List.getElem?_map] at e1 e2
      cases hx : b[k]? <;> cases hy : (kvs'.modify i (fun kv => (kv.1, w)))[k]? <;> rw [hx, hy] at e1 e2 <;> simp at e1 e2 ⊢
      exact Prod.ext e1 e2
    rw [this]
  | none =>
    have := hno rfl
    subst this
    simp only [Option.getD_none]
    rw [ht]
    rw [ht] at hid
    have hf : findKey E kvs' name = none := by simpa using congrArg Prod.fst hid
    have : findKey E (kvs' ++ [(name, w)]) name = some kvs'.length := by
      unfold findKey at hf ⊢
      rw [List.findIdx?_append, hf]
      simp [Env.keyMatch_refl]
    rw [this, hl]

/-- When the tree of an object says that a search changes nothing, so it is with the node. -/
theorem finds_obj {E : Env} {h : Heap} {p q : Ptr} {ku : Bool} {kvs : List (Bytes × Val)} {F : List Ptr} (g : Good h (some p) (.obj ku kvs) F)
    {name : Bytes} {i : Nat} (hi : indexByName E ku kvs name = (some i, ku, kvs)) (hk : (Node.kids (h.mem p))[i]? = some (some q)) :
    Finds E (h.mem p) name q := by
  obtain ⟨F0, rfl, h5, hdt, hku, hm, hp0, hn0, hav⟩ := g.obj_inv
  obtain ⟨hkeys, hl⟩ := repM_iff.1 hm
  obtain ⟨h1, h2, h3⟩ := indexByName_keys E ku (xs := (h.mem p).kvs) (ys := kvs) hkeys name
  have h4 := indexByName_snd E ku (h.mem p).kvs name
  rw [hi] at h1 h2 h3
  simp only at h1 h2 h3
  unfold Finds lookupN
  rw [hdt]
  simp only [hku]
  rcases hj : indexByName E ku (h.mem p).kvs name with ⟨j, a, b⟩
  rw [hj] at h1 h2 h3 h4
  simp only at h1 h2 h3 h4
  subst h1 h2
  have hb : b = (h.mem p).kvs := by
    rw [← hkeys] at h3
    apply List.ext_getElem?
    intro k
    have e1 := congrArg (·[k]?) h3
    have e2 := congrArg (·[k]?) h4
    simp only [List.getElem?_map] at e1 e2
    cases hx : b[k]? <;> cases hy : (h.mem p).kvs[k]? <;> rw [hx, hy] at e1 e2 <;> simp at e1 e2 ⊢
    exact Prod.ext e1 e2
  subst hb
  rw [kids_obj hdt, List.getElem?_map] at hk
  simp only [Option.bind_some]
  refine Prod.ext ?_ ?_
  · cases hx : (h.mem p).kvs[i]? with
    | none => rw [hx] at hk; simp at hk
    | some kv => rw [hx] at hk; simp at hk; simp [hk]
  · simp only; rw [← hku, ← hdt]

theorem finds_arr {E : Env} {h : Heap} {p q : Ptr} {xs : List Val} {F : List Ptr} (g : Good h (some p) (.arr xs) F)
    {name : Bytes} (hr : 0 ≤ strIdx E name ∧ strIdx E name < xs.length) (hk : (Node.kids (h.mem p))[(strIdx E name).toNat]? = some (some q)) :
    Finds E (h.mem p) name q := by
  have hdt := rep_dt g.rep
  have hlen := g.arr_len
  unfold Finds lookupN
  rw [show (h.mem p).dt = .array from hdt]
  rw [kids_arr hdt] at hk
  simp only [hlen, if_pos (inRange_iff.2 hr), hk]
  rfl

/-! ## What the steps do to the tree -/

/-- The child that a lookup finds, if it is an object or array. -/
def boxAt (E : Env) : Val → Bytes → Option Val
  | .obj ku kvs, k => (objOld E ku kvs k).filter (fun w => w.vt = .object ∨ w.vt = .array)
  | .arr xs, k => if inRange (strIdx E k) xs.length then (xs[(strIdx E k).toNat]?).filter (fun w => w.vt = .object ∨ w.vt = .array) else none
  | _, _ => none

/-- The object or array the next step works on: the one that is there, or a new object. -/
def nextBox (E : Env) (v : Val) (k : Bytes) : Val := (boxAt E v k).getD (.obj false [])

/-- Put `w` under the name `k`; what is not an object, and an array whose index is not a number, becomes an object. -/
def putKey (E : Env) (v : Val) (k : Bytes) (w : Val) : Val :=
  match v with
  | .obj ku kvs => objPut E ku kvs k w
  | .arr xs => if strIdx E k < 0 then objPut E false [] k w else arrPut xs (strIdx E k) w
  | _ => objPut E false [] k w

/-- The tree after `ForcePath` returned a node with the value `w`. -/
def forceVal (E : Env) : Val → List Bytes → Val → Val
  | _, [], w => w
  | v, [k], w => putKey E v k w
  | v, k :: k2 :: path, w => putKey E v k (forceVal E (nextBox E v k) (k2 :: path) w)

/-- No nil member in the way; an array index is at most the length. -/
def StepOk (E : Env) : Val → Bytes → Prop
  | .obj ku kvs, k => objOld E ku kvs k ≠ some .nil
  | .arr xs, k => strIdx E k ≤ xs.length
  | _, _ => True

/-- The paths for which `ForcePath` works. -/
def Forceable (E : Env) : Val → List Bytes → Prop
  | _, [] => False
  | v, [k] => StepOk E v k ∧ (∀ xs, v = .arr xs → -1 ≤ strIdx E k)
  | v, k :: k2 :: path => StepOk E v k ∧ Forceable E (nextBox E v k) (k2 :: path)

/-- One step is done: below `p` there is a child `c` with the tree `w`, which the name `k` finds, and replacing it gives `putKey`. -/
structure Stepped (E : Env) (h : Heap) (p : Ptr) (v : Val) (F : List Ptr) (k : Bytes) (c : Ptr) (h1 : Heap) (w : Val) : Prop where
  finds : Finds E (h1.mem p) k c
  frame : Frame h F h1
  child : ∃ Fc, Good h1 (some c) w Fc ∧ p ∉ Fc ∧ ¬Avail h1 p ∧ ∀ h2 w' Fc', Upd h1 Fc h2 (some c) w' Fc' →
    ∃ F', Upd h F h2 (some p) (putKey E v k w') F'

theorem rep_head_notin {m : Ptr → Node} {v : Val} {p : Ptr} {F : List Ptr} {i : Nat} {x : Val} (h : Rep m v (some p) F) (hn : F.Nodup)
    (hx : (Val.kids v)[i]? = some x) {b : Option Ptr} (hb : (Node.kids (m p))[i]? = some b) {Fi : List Ptr} (hr : Rep m x b Fi) : p ∉ Fi := by
  obtain ⟨p', q, F1, Fi', F2, e, h5, hk, rfl, hrx, -⟩ := repL_kid h hx
  cases e
  rw [hk] at hb
  cases hb
  rw [← (rep_det hrx hr).2]
  intro hp
  have := (List.nodup_cons.1 hn).1
  simp [hp] at this

/-- `SetKey` on an object. -/
theorem setKey_stepped {E : Env} {h : Heap} {p : Ptr} {ku : Bool} {kvs : List (Bytes × Val)} {F : List Ptr}
    (g : Good h (some p) (.obj ku kvs) F) (k : Bytes) (t : VT) (hnil : objOld E ku kvs k ≠ some .nil) (c : Option CId) (hc : ∀ d, c = some d → d < h.nextC) :
    ∃ q h1 w, setKeyCached E h p k t c = .ok (q, h1) ∧ 5 ≤ q ∧ Stepped E h p (.obj ku kvs) F k q h1 w ∧ Slot t (objOld E ku kvs k) w := by
  obtain ⟨q, h1, w, F1, he, u, hk, h5, hs⟩ := setKeyCached_obj E g k t c hc hnil
  obtain ⟨b, Fq, hb, gq, -, hupd⟩ := u.good.kid (kids_objPut E ku kvs k w)
  have hb' := hb
  rw [hk] at hb
  cases hb
  refine ⟨q, h1, w, he, h5, ⟨?_, u.frame, Fq, gq, ?_, ?_, ?_⟩, hs⟩
  · exact finds_obj u.good (indexByName_put E ku kvs k w) hk
  · exact rep_head_notin u.good.rep u.good.nodup (kids_objPut E ku kvs k w) hb' gq.rep
  · exact u.good.live p (rep_mem u.good.rep (by obtain ⟨F0, -, h, -⟩ := g.obj_inv; exact h))
  · intro h2 w' Fq' u2
    obtain ⟨F', u3⟩ := hupd [] h2 w' Fq' u2 (by simp)
    rw [setKid_objPut] at u3
    exact ⟨F', u.trans u3⟩

/-- Preparing the node first. -/
theorem Stepped.after {E : Env} {h h0 h1 : Heap} {p c : Ptr} {v v0 w : Val} {F F0 : List Ptr} {k : Bytes} (s : Stepped E h0 p v0 F0 k c h1 w)
    (u : Upd h F h0 (some p) v0 F0) (hp : ∀ w', putKey E v0 k w' = putKey E v k w') : Stepped E h p v F k c h1 w where
  finds := s.finds
  frame := u.frame.trans s.frame (fun q hq => (u.sub q hq).imp id (fun h => h.elim (fun h => by simp at h) id))
  child := by
    obtain ⟨Fc, g, h1, h2, h3⟩ := s.child
    refine ⟨Fc, g, h1, h2, ?_⟩
    intro h2 w' Fc' u2
    obtain ⟨F', u3⟩ := h3 h2 w' Fc' u2
    exact ⟨F', hp w' ▸ u.trans u3⟩

theorem setIndex_stepped {E : Env} {h : Heap} {p : Ptr} {xs : List Val} {F : List Ptr} (g : Good h (some p) (.arr xs) F) (k : Bytes) (t : VT)
    (h0 : 0 ≤ strIdx E k) (hle : strIdx E k ≤ xs.length) :
    ∃ w, Stepped E h p (.arr xs) F k (setIndex h p (strIdx E k) t).1 (setIndex h p (strIdx E k) t).2 w ∧ Slot t (arrOld xs (strIdx E k)) w ∧
      ((constOf t).isNone → 5 ≤ (setIndex h p (strIdx E k) t).1) := by
  obtain ⟨w, F1, u, hk, hs, hs5⟩ := setIndexCached_arr g (strIdx E k) t (h.mem p).owner (fun d hd => g.inv.owner p d hd)
  obtain ⟨b, Fq, hb, gq, -, hupd⟩ := u.good.kid (kids_arrPut xs (strIdx E k) w)
  have hb' := hb
  rw [hk] at hb
  cases hb
  refine ⟨w, ⟨?_, u.frame, Fq, gq, ?_, ?_, ?_⟩, hs, hs5⟩
  · have e : arrPos xs (strIdx E k) = (strIdx E k).toNat := by
      unfold arrPos
      split
      · rfl
      · rename_i hr; rw [inRange_iff] at hr; omega
    obtain ⟨ys, hys⟩ : ∃ ys, arrPut xs (strIdx E k) w = .arr ys := by unfold arrPut; split <;> exact ⟨_, rfl⟩
    have hlt := kids_arrPut xs (strIdx E k) w
    have ug := u.good
    rw [hys] at ug
    rw [hys, e] at hlt
    have := (List.getElem?_eq_some_iff.1 hlt).1
    simp only [Val.kids] at this
    exact finds_arr ug ⟨h0, by omega⟩ (e ▸ hk)
  · exact rep_head_notin u.good.rep u.good.nodup (kids_arrPut xs (strIdx E k) w) hb' gq.rep
  · exact u.good.live p (rep_mem u.good.rep (by obtain ⟨F0, -, h, -⟩ := g.arr_inv; exact h))
  · intro h2 w' Fq' u2
    obtain ⟨F', u3⟩ := hupd [] h2 w' Fq' u2 (by simp)
    rw [setKid_arrPut] at u3
    have : putKey E (.arr xs) k w' = arrPut xs (strIdx E k) w' := by simp only [putKey]; rw [if_neg (by omega)]
    rw [this]
    exact ⟨F', u.trans u3⟩

/-- What is under the name `k` before `SetKey`. -/
def oldAt (E : Env) : Val → Bytes → Option Val
  | .obj ku kvs, k => objOld E ku kvs k
  | .arr xs, k => if strIdx E k < 0 then none else arrOld xs (strIdx E k)
  | _, _ => none

theorem objOld_empty (E : Env) (k : Bytes) : objOld E false [] k = none := by
  unfold objOld
  cases h : (indexByName E false ([] : List (Bytes × Val)) k).1 with
  | none => rfl
  | some i => simp

/-- Neither object nor array. -/
def Plain (v : Val) : Prop := (∀ ku kvs, v ≠ .obj ku kvs) ∧ ∀ xs, v ≠ .arr xs

theorem Plain.facts {v : Val} (hp : Plain v) (E : Env) (k : Bytes) (w : Val) :
    putKey E v k w = objPut E false [] k w ∧ oldAt E v k = none ∧ boxAt E v k = none ∧ (v ≠ .nil → v.vt ≠ .object ∧ v.vt ≠ .array) := by
  cases v <;> first
    | exact absurd rfl (hp.1 _ _)
    | exact absurd rfl (hp.2 _)
    | refine ⟨rfl, rfl, rfl, fun _ => ⟨by simp [Val.vt], by simp [Val.vt]⟩⟩

theorem reset_dt {h : Heap} {p : Ptr} (h5 : 5 ≤ p) (t : VT) : ((reset h p t).mem p).dt = t := by
  rw [reset_mem h5]; rfl

theorem setKeyCached_reset (E : Env) {h : Heap} {p : Ptr} (h5 : 5 ≤ p) (k : Bytes) (t : VT) (c : Option CId) (ho : (h.mem p).dt ≠ .object)
    (ha : ¬((h.mem p).dt = .array ∧ strIdx E k ≠ -1)) : setKeyCached E h p k t c = setKeyCached E (reset h p .object) p k t c := by
  have hd := reset_dt (h := h) h5 .object
  have h1 : ¬(((reset h p .object).mem p).dt = .array ∧ strIdx E k ≠ -1) := by rw [hd]; simp
  conv => rhs; unfold setKeyCached; rw [if_neg h1, if_pos hd]
  conv => lhs; unfold setKeyCached; rw [if_neg ha, if_neg ho]

theorem lookupN_idem (E : Env) (n : Node) (k : Bytes) : lookupN E (lookupN E n k).2 k = lookupN E n k := by
  unfold lookupN
  cases hd : n.dt <;> simp only [hd]
  · simp only [indexByName_idem]
  · by_cases hr : inRange (strIdx E k) n.arr.length = true
    · simp only [hr, if_true, hd]
    · simp only [hr, if_false, hd, Bool.false_eq_true]

/-- `SetKey` on a node that is first made an object. -/
theorem setKey_reset {E : Env} {h : Heap} {p : Ptr} {v : Val} {F : List Ptr} (g : Good h (some p) v F) (h5 : 5 ≤ p) (k : Bytes) (t : VT)
    (hput : ∀ w, putKey E v k w = objPut E false [] k w) (c : Option CId) (hc : ∀ d, c = some d → d < h.nextC) :
    ∃ q h1 w, setKeyCached E (reset h p .object) p k t c = .ok (q, h1) ∧ 5 ≤ q ∧ Stepped E h p v F k q h1 w ∧ Slot t none w := by
  have u := reset_upd g h5 .object
  obtain ⟨q, h1, w, he, hq, s, hs⟩ := setKey_stepped (E := E) u.good k t (by rw [objOld_empty]; simp) c (by simpa using hc)
  rw [objOld_empty] at hs
  exact ⟨q, h1, w, he, hq, s.after u (fun w' => by rw [hput]; rfl), hs⟩

theorem setKey_last {E : Env} {h : Heap} {p : Ptr} {v : Val} {F : List Ptr} (g : Good h (some p) v F) (h5 : 5 ≤ p) (k : Bytes) (t : VT)
    (hok : StepOk E v k) (hneg : ∀ xs, v = .arr xs → -1 ≤ strIdx E k) :
    ∃ q h1 w, setKey E h p k t = .ok (q, h1) ∧ Stepped E h p v F k q h1 w ∧ Slot t (oldAt E v k) w := by
  have hdt := rep_dt g.rep
  have hown := fun d hd => g.inv.owner p d hd
  unfold setKey
  by_cases ho : ∃ ku kvs, v = .obj ku kvs
  · obtain ⟨ku, kvs, rfl⟩ := ho
    obtain ⟨q, h1, w, he, -, s, hs⟩ := setKey_stepped (E := E) g k t hok (h.mem p).owner hown
    exact ⟨q, h1, w, he, s, hs⟩
  · by_cases ha : ∃ xs, v = .arr xs
    · obtain ⟨xs, rfl⟩ := ha
      have hn := hneg xs rfl
      simp only [StepOk] at hok
      by_cases h0 : strIdx E k < 0
      · have e1 : strIdx E k = -1 := by omega
        have e : setKeyCached E h p k t (h.mem p).owner = setKeyCached E (reset h p .object) p k t (h.mem p).owner := by
          exact setKeyCached_reset E h5 k t _ (by rw [hdt]; simp [Val.vt]) (by simp [e1])
        obtain ⟨q, h1, w, he, -, s, hs⟩ := setKey_reset (E := E) g h5 k t (fun w => by simp only [putKey]; rw [if_pos h0]) (h.mem p).owner hown
        refine ⟨q, h1, w, e ▸ he, s, ?_⟩
        simpa [oldAt, h0] using hs
      · obtain ⟨w, s, hs, -⟩ := setIndex_stepped (E := E) g k t (by omega) hok
        refine ⟨_, _, w, ?_, s, ?_⟩
        · unfold setKeyCached
          rw [if_pos ⟨hdt, by omega⟩]
        · simpa [oldAt, h0] using hs
    · have hp : Plain v := ⟨fun ku kvs h => ho ⟨ku, kvs, h⟩, fun xs h => ha ⟨xs, h⟩⟩
      obtain ⟨-, e2, -, e4⟩ := hp.facts E k .nil
      obtain ⟨e4, e5⟩ := e4 (rep_ne_nil g.rep)
      have e : setKeyCached E h p k t (h.mem p).owner = setKeyCached E (reset h p .object) p k t (h.mem p).owner := by
        exact setKeyCached_reset E h5 k t _ (by rw [hdt]; exact e4) (by rw [hdt]; simp [e5])
      obtain ⟨q, h1, w, he, -, s, hs⟩ := setKey_reset (E := E) g h5 k t (fun w => (hp.facts E k w).1) (h.mem p).owner hown
      exact ⟨q, h1, w, e ▸ he, s, e2 ▸ hs⟩

theorem objOld_idem (E : Env) (ku : Bool) (kvs : List (Bytes × Val)) (k : Bytes) :
    objOld E (indexByName E ku kvs k).2.1 (indexByName E ku kvs k).2.2 k = objOld E ku kvs k := by
  unfold objOld
  rw [indexByName_idem, indexByName_snd]

theorem objPut_idem (E : Env) (ku : Bool) (kvs : List (Bytes × Val)) (k : Bytes) (w : Val) :
    objPut E (indexByName E ku kvs k).2.1 (indexByName E ku kvs k).2.2 k w = objPut E ku kvs k w := by
  unfold objPut setKeyValueObj
  rw [indexByName_idem]

/-- Going down into an object or array that is there, in an object. -/
theorem stay_obj {E : Env} {h : Heap} {p : Ptr} {ku : Bool} {kvs : List (Bytes × Val)} {F : List Ptr}
    (g : Good h (some p) (.obj ku kvs) F) {k : Bytes} {i : Nat} {w : Val} (hi : indexByName E ku kvs k = (some i, ku, kvs))
    (hw : (kvs.map Prod.snd)[i]? = some w) (hne : w ≠ .nil) :
    ∃ q, (Node.kids (h.mem p))[i]? = some (some q) ∧ (h.mem q).dt = w.vt ∧ ((w.vt = .object ∨ w.vt = .array) → 5 ≤ q) ∧ Stepped E h p (.obj ku kvs) F k q h w := by
  obtain ⟨b, Fq, hb, gq, hsub, hupd⟩ := g.kid (i := i) (x := w) hw
  have h5 : 5 ≤ p := by obtain ⟨F0, -, h, -⟩ := g.obj_inv; exact h
  rcases rep_cases gq.rep with ⟨e, -⟩ | ⟨q, _, rfl, hq, -, hd, -⟩ | ⟨q, hl, rfl, -, -, hd⟩
  · exact absurd e hne
  all_goals
    refine ⟨q, hb, hd, ?_, finds_obj g hi hb, Frame.refl g.inv F, Fq, gq, rep_head_notin g.rep g.nodup hw hb gq.rep, g.live p (rep_mem g.rep h5), ?_⟩
  · exact fun _ => hq
  · intro h2 w' Fq' u2
    obtain ⟨F', u3⟩ := hupd [] h2 w' Fq' u2 (by simp)
    refine ⟨F', ?_⟩
    simp only [putKey, objPut, setKeyValueObj, hi]
    exact u3
  · intro hbox; cases w <;> simp [Val.isLeaf, Val.vt] at hl hbox
  · intro h2 w' Fq' u2
    obtain ⟨F', u3⟩ := hupd [] h2 w' Fq' u2 (by simp)
    refine ⟨F', ?_⟩
    simp only [putKey, objPut, setKeyValueObj, hi]
    exact u3

theorem stay_arr {E : Env} {h : Heap} {p : Ptr} {xs : List Val} {F : List Ptr}
    (g : Good h (some p) (.arr xs) F) {k : Bytes} {w : Val} (hr : 0 ≤ strIdx E k ∧ strIdx E k < xs.length)
    (hw : xs[(strIdx E k).toNat]? = some w) (hne : w ≠ .nil) :
    ∃ q, (Node.kids (h.mem p))[(strIdx E k).toNat]? = some (some q) ∧ (h.mem q).dt = w.vt ∧
      ((w.vt = .object ∨ w.vt = .array) → 5 ≤ q) ∧ Stepped E h p (.arr xs) F k q h w := by
  obtain ⟨b, Fq, hb, gq, hsub, hupd⟩ := g.kid (i := (strIdx E k).toNat) (x := w) hw
  have h5 : 5 ≤ p := by obtain ⟨F0, -, h, -⟩ := g.arr_inv; exact h
  have hp : ∀ w', putKey E (.arr xs) k w' = .arr (xs.set (strIdx E k).toNat w') := by
    intro w'
    simp only [putKey, arrPut]
    rw [if_neg (by omega), if_pos (inRange_iff.2 hr)]
  rcases rep_cases gq.rep with ⟨e, -⟩ | ⟨q, _, rfl, hq, -, hd, -⟩ | ⟨q, hl, rfl, -, -, hd⟩
  · exact absurd e hne
  all_goals
    refine ⟨q, hb, hd, ?_, finds_arr g hr hb, Frame.refl g.inv F, Fq, gq, rep_head_notin g.rep g.nodup hw hb gq.rep, g.live p (rep_mem g.rep h5), ?_⟩
  · exact fun _ => hq
  · intro h2 w' Fq' u2
    obtain ⟨F', u3⟩ := hupd [] h2 w' Fq' u2 (by simp)
    exact ⟨F', hp w' ▸ u3⟩
  · intro hbox; cases w <;> simp [Val.isLeaf, Val.vt] at hl hbox
  · intro h2 w' Fq' u2
    obtain ⟨F', u3⟩ := hupd [] h2 w' Fq' u2 (by simp)
    exact ⟨F', hp w' ▸ u3⟩

theorem Finds.iff {E : Env} {h : Heap} {p q : Ptr} {k : Bytes} (f : Finds E (h.mem p) k q) : valueByName E h p k = (some q, h) := f.value

/-- One round of the loop. -/
theorem forceStep_ok {E : Env} {h : Heap} {p : Ptr} {v : Val} {F : List Ptr} (g : Good h (some p) v F) (h5 : 5 ≤ p) (k : Bytes)
    (hok : StepOk E v k) (ll l : Option Ptr) (prev : Bytes) :
    ∃ ll' q h1, forceStep E h ll l p prev k = .ok (ll', some p, q, h1) ∧ 5 ≤ q ∧ Stepped E h p v F k q h1 (nextBox E v k) := by
  have hdt := rep_dt g.rep
  by_cases ho : ∃ ku kvs, v = .obj ku kvs
  · obtain ⟨ku, kvs, rfl⟩ := ho
    obtain ⟨u, G, gg, -⟩ := valueByName_obj E g k
    have hval : valueByName E h p k = ((valueByName E h p k).1, (valueByName E h p k).2) := rfl
    have hfst : (valueByName E h p k).1 = (lookupN E (h.mem p) k).1 := by rw [valueByName_node]
    generalize hr : (valueByName E h p k).1 = r at *
    generalize hh : (valueByName E h p k).2 = h1 at *
    have hdt1 := rep_dt u.good.rep
    have hown := fun d hd => u.good.inv.owner p d hd
    have hput : ∀ w', putKey E (.obj (indexByName E ku kvs k).2.1 (indexByName E ku kvs k).2.2) k w' = putKey E (.obj ku kvs) k w' :=
      fun w' => objPut_idem E ku kvs k w'
    simp only [StepOk] at hok
    unfold forceStep
    simp only [hval]
    cases hold : objOld E ku kvs k with
    | none =>
      rw [hold] at gg
      have : r = none := gg.rep.1
      subst this
      simp only [Option.filter_none, show (h1.mem p).dt = .object from hdt1]
      obtain ⟨q, h2, w, he, hq, s, hs⟩ := setKey_stepped (E := E) u.good k .object (by rw [objOld_idem, hold]; simp) (h1.mem p).owner hown
      unfold setKey
      rw [he]
      refine ⟨_, q, h2, rfl, hq, ?_⟩
      rw [objOld_idem, hold] at hs
      obtain ⟨c, rfl⟩ := hs
      have : nextBox E (.obj ku kvs) k = blankVal .object c := by simp [nextBox, boxAt, hold, blankVal]
      rw [this]
      exact s.after u hput
    | some w0 =>
      rw [hold] at gg hok
      simp only [Option.getD_some] at gg
      have hne : w0 ≠ .nil := fun e => hok (by rw [e])
      obtain ⟨q, rfl, hqd⟩ : ∃ q, r = some q ∧ (h1.mem q).dt = w0.vt := by
        rcases rep_cases gg.rep with ⟨e, -⟩ | ⟨q, _, rfl, -, -, hd, -⟩ | ⟨q, -, rfl, -, -, hd⟩
        · exact absurd e hne
        · exact ⟨q, rfl, hd⟩
        · exact ⟨q, rfl, hd⟩
      by_cases hbox : w0.vt = .object ∨ w0.vt = .array
      · simp only [Option.filter_some, hqd, hbox, decide_true, if_true]
        have hn : nextBox E (.obj ku kvs) k = w0 := by simp only [nextBox, boxAt, hold, Option.filter_some, hbox, decide_true, decide_false, if_true, if_false, Bool.false_eq_true, Option.getD_some, Option.getD_none]
        rw [hn]
        have hold' := hold
        rw [← objOld_idem] at hold'
        unfold objOld at hold'
        rw [indexByName_idem] at hold'
        obtain ⟨i, hi, hw⟩ := Option.bind_eq_some_iff.1 hold'
        have hidem := indexByName_idem E ku kvs k
        have hi3 : indexByName E ku kvs k = (some i, (indexByName E ku kvs k).2.1, (indexByName E ku kvs k).2.2) := by rw [← hi]
        obtain ⟨q', hk, -, hq5, s⟩ := stay_obj u.good (hidem.trans hi3) hw hne
        have hqq : q' = q := by
          have h1' := s.finds
          unfold Finds at h1'
          have h2 : (lookupN E (h.mem p) k).1 = (lookupN E (h1.mem p) k).1 := by
            have hm : h1.mem p = (lookupN E (h.mem p) k).2 := by
              rw [← hh, valueByName_node, set_mem_same]
            rw [hm, lookupN_idem]
          rw [h1', ← hfst] at h2
          simpa using h2.symm
        subst hqq
        exact ⟨_, q', h1, rfl, hq5 hbox, s.after u hput⟩
      · simp only [Option.filter_some, hqd, hbox, decide_false, Bool.false_eq_true, if_false, show (h1.mem p).dt = .object from hdt1]
        obtain ⟨q2, h2, w, he, hq2, s, hs⟩ := setKey_stepped (E := E) u.good k .object (by rw [objOld_idem, hold]; exact hok) (h1.mem p).owner hown
        unfold setKey
        rw [he]
        refine ⟨_, q2, h2, rfl, hq2, ?_⟩
        rw [objOld_idem, hold] at hs
        simp only [Slot] at hs
        rw [if_neg (fun h => hbox (Or.inl h.2))] at hs
        obtain ⟨c, rfl⟩ := hs
        have : nextBox E (.obj ku kvs) k = blankVal .object c := by simp only [nextBox, boxAt, hold, Option.filter_some, hbox, decide_true, decide_false, if_true, if_false, Bool.false_eq_true, Option.getD_some, Option.getD_none, blankVal]
        rw [this]
        exact s.after u hput
  · by_cases ha : ∃ xs, v = .arr xs
    · obtain ⟨xs, rfl⟩ := ha
      have hlen := g.arr_len
      simp only [StepOk] at hok
      have hv : valueByName E h p k = (if inRange (strIdx E k) xs.length then ((Node.kids (h.mem p))[(strIdx E k).toNat]?).bind id else none, h) := by
        unfold valueByName
        rw [show (h.mem p).dt = .array from hdt]
        simp only [hlen, kids_arr hdt]
        split <;> rfl
      unfold forceStep
      simp only [hv]
      by_cases h0 : strIdx E k < 0
      · have hr : ¬inRange (strIdx E k) xs.length = true := by rw [inRange_iff]; omega
        simp only [hr, if_false, Option.filter_none, show (h.mem p).dt = .array from hdt, h0, if_true]
        obtain ⟨q, h1, w, he, hq, s, c, rfl⟩ := setKey_reset (E := E) g h5 k .object (fun w => by simp only [putKey]; rw [if_pos h0])
          (h.mem p).owner (fun d hd => g.inv.owner p d hd)
        unfold setKey
        rw [reset_owner, he]
        refine ⟨_, q, h1, rfl, hq, ?_⟩
        have : nextBox E (.arr xs) k = blankVal .object c := by simp [nextBox, boxAt, hr, blankVal]
        rw [this]
        exact s
      · have hset : ∀ (hbox : nextBox E (.arr xs) k = .obj false []) (hnb : ∀ x, arrOld xs (strIdx E k) = some x → x.vt ≠ .object),
            5 ≤ (setIndex h p (strIdx E k) .object).1 ∧ Stepped E h p (.arr xs) F k (setIndex h p (strIdx E k) .object).1 (setIndex h p (strIdx E k) .object).2 (nextBox E (.arr xs) k) := by
          intro hbox hnb
          obtain ⟨w, s, hs, hq⟩ := setIndex_stepped (E := E) g k .object (by omega) hok
          have : w = .obj false [] := by
            unfold Slot at hs
            split at hs
            · rename_i x hx
              rw [if_neg (fun h => hnb x hx h.2)] at hs
              obtain ⟨c, rfl⟩ := hs; rfl
            · obtain ⟨c, rfl⟩ := hs; rfl
          rw [hbox, ← this]
          exact ⟨hq rfl, s⟩
        by_cases hr : inRange (strIdx E k) xs.length = true
        · have hr' := inRange_iff.1 hr
          obtain ⟨x, hx⟩ : ∃ x, xs[(strIdx E k).toNat]? = some x := ⟨_, List.getElem?_eq_getElem (by omega)⟩
          have hao : arrOld xs (strIdx E k) = some x := by unfold arrOld; rw [if_pos hr, hx]
          simp only [hr, if_true, show (h.mem p).dt = .array from hdt, h0, if_false]
          by_cases hne : x = .nil
          · subst hne
            obtain ⟨b, Fq, hb, gq, -⟩ := g.kid (i := (strIdx E k).toNat) (x := .nil) hx
            have : b = none := gq.rep.1
            subst this
            simp only [hb, Option.bind_some, id, Option.filter_none]
            have hb1 : nextBox E (.arr xs) k = .obj false [] := by simp [nextBox, boxAt, hr, hx, Option.filter_some, Val.vt]
            obtain ⟨hq, s⟩ := hset hb1 (fun y hy => by rw [hao] at hy; cases hy; simp [Val.vt])
            exact ⟨_, _, _, rfl, hq, s⟩
          · obtain ⟨q, hk, hd, hq5, s⟩ := stay_arr (E := E) g hr' hx hne
            simp only [hk, Option.bind_some, id]
            by_cases hbox : x.vt = .object ∨ x.vt = .array
            · simp only [Option.filter_some, hd, hbox, decide_true, if_true]
              have : nextBox E (.arr xs) k = x := by simp only [nextBox, boxAt, hr, hx, Option.filter_some, hbox, decide_true, decide_false, if_true, if_false, Bool.false_eq_true, Option.getD_some, Option.getD_none]
              rw [this]
              exact ⟨_, q, h, rfl, hq5 hbox, s⟩
            · simp only [Option.filter_some, hd, hbox, decide_false, Bool.false_eq_true, if_false]
              have hb1 : nextBox E (.arr xs) k = .obj false [] := by simp only [nextBox, boxAt, hr, hx, Option.filter_some, hbox, decide_true, decide_false, if_true, if_false, Bool.false_eq_true, Option.getD_some, Option.getD_none]
              obtain ⟨hq, s⟩ := hset hb1 (fun y hy => by rw [hao] at hy; cases hy; exact fun h => hbox (Or.inl h))
              exact ⟨_, _, _, rfl, hq, s⟩
        · simp only [hr, if_false, Option.filter_none, show (h.mem p).dt = .array from hdt, h0, Bool.false_eq_true]
          have hb1 : nextBox E (.arr xs) k = .obj false [] := by simp [nextBox, boxAt, hr]
          obtain ⟨hq, s⟩ := hset hb1 (fun y hy => by unfold arrOld at hy; rw [if_neg hr] at hy; cases hy)
          exact ⟨_, _, _, rfl, hq, s⟩
    · have hp : Plain v := ⟨fun ku kvs h => ho ⟨ku, kvs, h⟩, fun xs h => ha ⟨xs, h⟩⟩
      obtain ⟨-, -, e3, e4⟩ := hp.facts E k .nil
      obtain ⟨e4, e5⟩ := e4 (rep_ne_nil g.rep)
      have hv : valueByName E h p k = (none, h) := by
        unfold valueByName
        rw [hdt]
        split
        · contradiction
        · contradiction
        · rfl
      obtain ⟨q, h1, w, he, hq, s, c, rfl⟩ := setKey_reset (E := E) g h5 k .object (fun w => (hp.facts E k w).1)
        (h.mem p).owner (fun d hd => g.inv.owner p d hd)
      unfold forceStep
      simp only [hv, Option.filter_none]
      have hsh : shared p = false := by simp [shared]; omega
      split
      · rename_i hh; exact absurd (hdt ▸ hh) e5
      · rename_i hh; exact absurd (hdt ▸ hh) e4
      · rw [hsh]
        simp only [Bool.false_eq_true, if_false]
        unfold setKey
        rw [reset_owner, he]
        refine ⟨_, q, h1, rfl, hq, ?_⟩
        have : nextBox E v k = blankVal .object c := by simp [nextBox, e3, blankVal]
        rw [this]
        exact s

/-- What is at the end of the path before `ForcePath`. -/
def forceOld (E : Env) : Val → List Bytes → Option Val
  | v, [] => some v
  | v, [k] => oldAt E v k
  | v, k :: k2 :: path => forceOld E (nextBox E v k) (k2 :: path)

/-- The whole loop. -/
theorem forceLoop_ok {E : Env} (t : VT) : ∀ (path : List Bytes) {h : Heap} {p : Ptr} {v : Val} {F : List Ptr}, Good h (some p) v F → 5 ≤ p →
    Forceable E v path → ∀ (ll l : Option Ptr) (prev : Bytes),
    ∃ q h' w F' G, forceLoop E t h ll l p prev path = .ok (q, h') ∧ valueByPath E h' p path = (some q, h') ∧
      Upd h F h' (some p) (forceVal E v path w) F' ∧ Good h' (some q) w G ∧ Slot t (forceOld E v path) w
  | [], _, _, _, _, _, _, hf, _, _, _ => hf.elim
  | [k], h, p, v, F, g, h5, hf, ll, l, prev => by
    obtain ⟨q, h1, w, he, s, hs⟩ := setKey_last g h5 k t hf.1 hf.2
    obtain ⟨Fc, gc, -, -, hup⟩ := s.child
    obtain ⟨F', u⟩ := hup h1 w Fc (gc.upd_refl)
    refine ⟨q, h1, w, F', Fc, he, ?_, u, gc, hs⟩
    simp only [valueByPath, s.finds.value]
  | k :: k2 :: path, h, p, v, F, g, h5, hf, ll, l, prev => by
    obtain ⟨ll', c, h1, he, hc5, s⟩ := forceStep_ok g h5 k hf.1 ll l prev
    obtain ⟨Fc, gc, hpc, hpa, hup⟩ := s.child
    obtain ⟨q, h', w, F', G, hl, hv, u, gq, hw⟩ := forceLoop_ok t (k2 :: path) gc hc5 hf.2 ll' (some p) k
    obtain ⟨F'', u2⟩ := hup h' _ F' u
    have hmem : h'.mem p = h1.mem p := u.frame.mem p h5 hpc hpa
    have hfind : Finds E (h'.mem p) k c := by rw [hmem]; exact s.finds
    refine ⟨q, h', w, F'', G, ?_, ?_, u2, gq, hw⟩
    · rw [forceLoop, he]
      exact hl
    · rw [valueByPath, hfind.value]
      exact hv

end Dxs.Heap
