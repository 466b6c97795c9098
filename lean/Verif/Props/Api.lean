import Verif.Heap.Example
import Verif.Bson.Model
import Verif.Json.Roundtrip

/-!
# Properties of the object and array API: C28-C32, C36, C41, C42

`Good h (some p) v F` says: in the well-formed heap `h` the pointer `p` represents the tree `v` by the distinct nodes `F`,
none of which a later allocation can hand out. Every theorem about an operation on such a value also says that no node
outside it changed (`Frame`), so the operation can be used on any sub-tree of a bigger value (`C29_nested`).
-/

namespace Dxs.Heap

/-! ## C28: lookup -/

/-- Specification: the value of the first member whose unescaped name is `name`. -/
def firstNamed (E : Env) (v : Val) (name : Bytes) : Option Val :=
  ((members E v).find? (fun kv => E.keyMatch kv.1 name)).map Prod.snd

theorem firstNamed_get (E : Env) (v : Val) (name : Bytes) : firstNamed E v name = Assoc.get E.keyMatch (members E v) name := by
  unfold firstNamed
  induction members E v with
  | nil => rfl
  | cons x r ih =>
    obtain ⟨k, w⟩ := x
    simp only [List.find?_cons, Assoc.get]
    by_cases h : E.keyMatch k name = true
    · simp [h]
    · simp only [h]; exact ih

/-- The names of the members are pairwise different. -/
def UniqueNames (E : Env) (v : Val) : Prop := ((members E v).map Prod.fst).Pairwise (fun a b => E.keyMatch a b = false)

/-- When the names are unique, `ValueByName` finds the first (and only) member with that unescaped name, nil if there is none.
Missing for the full property: objects with repeated names (see `C28_raw_first`). -/
theorem C28_lookup_partial {E : Env} (L : KeyLaws E) {h : Heap} {p : Ptr} {ku : Bool} {kvs : List (Bytes × Val)} {F : List Ptr}
    (g : Good h (some p) (.obj ku kvs) F) (hu : UniqueNames E (.obj ku kvs)) (name : Bytes) :
    ∃ G, Good (valueByName E h p name).2 (valueByName E h p name).1 ((firstNamed E (.obj ku kvs) name).getD .nil) G := by
  obtain ⟨-, G, gg, -⟩ := valueByName_obj E g name
  rw [objOld_members L ku kvs hu, ← firstNamed_get] at gg
  exact ⟨G, gg⟩

/-- Without any assumption about names or external functions: once the keys have been unescaped the first member with the
name is found, also when names repeat. -/
theorem C28_unescaped (E : Env) {h : Heap} {p : Ptr} {kvs : List (Bytes × Val)} {F : List Ptr}
    (g : Good h (some p) (.obj true kvs) F) (name : Bytes) :
    ∃ G, Good (valueByName E h p name).2 (valueByName E h p name).1 ((firstNamed E (.obj true kvs) name).getD .nil) G := by
  obtain ⟨-, G, gg, -⟩ := valueByName_obj E g name
  have : objOld E true kvs name = firstNamed E (.obj true kvs) name := by
    rw [firstNamed_get, Assoc.get_findIdx]
    simp only [objOld, indexByName, findKey, unescKeys, members, Bool.not_true, Bool.false_and, Bool.false_eq_true, if_false, if_true]
    cases kvs.findIdx? (fun kv => E.keyMatch kv.1 name) <;> simp
  rw [this] at gg
  exact ⟨G, gg⟩

/-- A member whose key is written exactly like the name is preferred to an earlier one whose key only unescapes to it: in
`{"\/":1,"/":2}` the lookup of `/` gives 2. -/
theorem C28_raw_first :
    let kvs := [([92, 47], Val.int 0 1), ([47], Val.int 0 2)]
    objOld envEx false kvs [47] = some (.int 0 2) ∧ firstNamed envEx (.obj false kvs) [47] = some (.int 0 1) := by decide

/-- Non-vacuity: a parsed object whose first key is written `\/`; the lookup of `/` unescapes it. -/
example : ∃ G, Good (valueByName envEx exHeap 5 [47]).2 (valueByName envEx exHeap 5 [47]).1 (.int 0 1) G :=
  C28_lookup_partial (envEx_keyLaws false) exGood (by unfold UniqueNames; decide) [47]

/-! ## C31: removal -/

/-- Specification: the list without its first entry named `name`. -/
def without (E : Env) (name : Bytes) : List (Bytes × Val) → List (Bytes × Val)
  | [] => []
  | (k, v) :: r => if E.keyMatch k name then r else (k, v) :: without E name r

theorem without_del (E : Env) (name : Bytes) (l : List (Bytes × Val)) : without E name l = Assoc.del E.keyMatch l name := by
  induction l with
  | nil => rfl
  | cons x r ih => obtain ⟨k, v⟩ := x; simp [without, Assoc.del, ih]

/-- When the names are unique, `RemoveKey` removes the member with that name and nothing else. Missing for the full
property: repeated names, where it may be a later one (see `C31_raw_first`). -/
theorem C31_remove_partial {E : Env} (L : KeyLaws E) {h : Heap} {p : Ptr} {ku : Bool} {kvs : List (Bytes × Val)} {F : List Ptr}
    (g : Good h (some p) (.obj ku kvs) F) (hu : UniqueNames E (.obj ku kvs)) (name : Bytes) :
    ∃ v F', Upd h F (removeKey E h p name) (some p) v F' ∧ v.vt = .object ∧
      members E v = without E name (members E (.obj ku kvs)) := by
  obtain ⟨F', u⟩ := removeKey_obj E g name
  refine ⟨_, F', u, ?_, ?_⟩
  · unfold objDel; split <;> rfl
  · rw [members_objDel L ku kvs hu, without_del]

/-- After it the name is gone. -/
theorem C31_gone {E : Env} (L : KeyLaws E) (l : List (Bytes × Val)) (hu : (l.map Prod.fst).Pairwise (fun a b => E.keyMatch a b = false))
    (name : Bytes) : ∀ kv ∈ without E name l, E.keyMatch kv.1 name = false := by
  induction l with
  | nil => simp [without]
  | cons x r ih =>
    obtain ⟨k, v⟩ := x
    simp only [List.map_cons, List.pairwise_cons] at hu
    intro kv hkv
    rw [without] at hkv
    split at hkv
    · rename_i hk
      have := hu.1 kv.1 (List.mem_map_of_mem hkv)
      cases hm : E.keyMatch kv.1 name with
      | false => rfl
      | true => rw [L.match_trans hk (L.match_symm hm)] at this; cases this
    · rename_i hk
      rcases List.mem_cons.1 hkv with rfl | hkv
      · simpa using hk
      · exact ih hu.2 kv hkv

/-- Removing an absent name changes nothing that can be observed. -/
theorem C31_absent (E : Env) (l : List (Bytes × Val)) (name : Bytes) (h : ∀ kv ∈ l, E.keyMatch kv.1 name = false) :
    without E name l = l := by
  induction l with
  | nil => rfl
  | cons x r ih =>
    obtain ⟨k, v⟩ := x
    rw [without, if_neg (by simp [h (k, v)]), ih (fun kv hkv => h kv (by simp [hkv]))]

/-- `ExtractValue` removes the same member and returns it, intact and apart from the rest. Missing: as above. -/
theorem C31_extract_partial {E : Env} (L : KeyLaws E) {h : Heap} {p : Ptr} {ku : Bool} {kvs : List (Bytes × Val)} {F : List Ptr}
    (g : Good h (some p) (.obj ku kvs) F) (hu : UniqueNames E (.obj ku kvs)) (name : Bytes) :
    ∃ v F' G, Upd h F (extractValue E h p name).2 (some p) v F' ∧ v.vt = .object ∧
      members E v = without E name (members E (.obj ku kvs)) ∧
      Good (extractValue E h p name).2 (extractValue E h p name).1 ((firstNamed E (.obj ku kvs) name).getD .nil) G ∧
      ∀ q ∈ G, q ∉ F' := by
  obtain ⟨F', G, u, gg, hd, -⟩ := extractValue_obj E g name
  refine ⟨_, F', G, u, ?_, ?_, ?_, hd⟩
  · unfold objDel; split <;> rfl
  · rw [members_objDel L ku kvs hu, without_del]
  · rw [objOld_members L ku kvs hu, ← firstNamed_get] at gg; exact gg

/-- Whatever the names are, at most one member goes away and the others keep their order. -/
theorem C31_at_most_one (E : Env) {h : Heap} {p : Ptr} {ku : Bool} {kvs : List (Bytes × Val)} {F : List Ptr}
    (g : Good h (some p) (.obj ku kvs) F) (name : Bytes) :
    ∃ v F' i, Upd h F (removeKey E h p name) (some p) v F' ∧ members E v = (members E (.obj ku kvs)).eraseIdx i := by
  obtain ⟨F', u⟩ := removeKey_obj E g name
  have hm := members_index E ku kvs name
  have hl : (members E (.obj ku kvs)).length = kvs.length := by
    have := congrArg List.length (members_snd E ku kvs); simpa using this
  rcases hi : indexByName E ku kvs name with ⟨i, ku', kvs'⟩
  rw [hi] at hm
  simp only at hm
  refine ⟨_, F', i.getD kvs.length, u, ?_⟩
  unfold objDel
  rw [hi]
  cases i with
  | some i => simp only [Option.getD_some]; rw [members_erase, hm]
  | none => simp only [Option.getD_none]; rw [hm, List.eraseIdx_of_length_le (by omega)]

/-- With repeated names the member written exactly like the name goes, not the first: `{"\/":1,"/":2}` without `/`. -/
theorem C31_raw_first :
    let kvs := [([92, 47], Val.int 0 1), ([47], Val.int 0 2)]
    members envEx (objDel envEx false kvs [47]) = [([47], .int 0 1)] ∧
    without envEx [47] (members envEx (.obj false kvs)) = [([47], .int 0 2)] := by decide

example : UniqueNames envEx (.obj false exKvs) ∧ members envEx (objDel envEx false exKvs [47]) = [([97], .arr [.tru, .nil, .str [104]])] ∧
    firstNamed envEx (.obj false exKvs) [47] = some (.int 0 1) := by
  refine ⟨?_, by decide, by decide⟩
  unfold UniqueNames; decide

/-! ## C29, C30: objects are ordered maps -/

/-- What a key operation writes. -/
inductive Entry where
  | str (s : Bytes) | int (x : BitVec 64) | double (x : F64) | float (x : F32) | bool (b : Bool) | val (v : Val)

/-- A tree that holds what was written. (An integer may carry an extension number from before, and of a float32 only four
of the eight bytes of the cell are defined.) -/
def Entry.Fits : Entry → Val → Prop
  | .str s, v => v = .str s
  | .int x, v => ∃ e, v = .int e x
  | .double x, v => v = .double x
  | .float x, v => ∃ c, lo32 c = x ∧ v = .float c
  | .bool b, v => v = if b then .tru else .fls
  | .val w, v => v = w

/-- The key operations. `setVal` carries the tree the pointer represents. -/
inductive KeyOp where
  | setString (k s : Bytes) | setInt (k : Bytes) (x : BitVec 64) | setDouble (k : Bytes) (x : F64) | setFloat (k : Bytes) (x : F32)
  | setBool (k : Bytes) (b : Bool) | setValue (k : Bytes) (q : Ptr) (w : Val) | remove (k : Bytes) | lookup (k : Bytes)

/-- The operation on the heap. -/
def KeyOp.run (E : Env) (h : Heap) (p : Ptr) : KeyOp → Res Heap
  | .setString k s => setKeyString E h p k s
  | .setInt k x => setKeyInt E h p k x
  | .setDouble k x => setKeyDouble E h p k x
  | .setFloat k x => setKeyFloat E h p k x
  | .setBool k b => .ok (setKeyBool E h p k b)
  | .setValue k q _ => .ok (setKeyValue E h p k (some q))
  | .remove k => .ok (removeKey E h p k)
  | .lookup k => .ok (valueByName E h p k).2

/-- Specification: the operation on an insertion-ordered map. -/
def KeyOp.spec (E : Env) (m : List (Bytes × Entry)) : KeyOp → List (Bytes × Entry)
  | .setString k s => Assoc.put E.keyMatch m k (.str s)
  | .setInt k x => Assoc.put E.keyMatch m k (.int x)
  | .setDouble k x => Assoc.put E.keyMatch m k (.double x)
  | .setFloat k x => Assoc.put E.keyMatch m k (.float x)
  | .setBool k b => Assoc.put E.keyMatch m k (.bool b)
  | .setValue k _ w => Assoc.put E.keyMatch m k (.val w)
  | .remove k => Assoc.del E.keyMatch m k
  | .lookup _ => m

/-- The pointer given to `SetKeyValue` is a value of its own: a tree that shares no node with the object. -/
def KeyOp.Ok (h : Heap) (p : Ptr) : KeyOp → Prop
  | .setValue _ q w => ∃ G, Good h (some q) w G ∧ ∀ v F, Good h (some p) v F → ∀ x ∈ G, x ∉ F
  | _ => True

/-- Same keys, fitting values. -/
inductive FitsAll : List (Bytes × Val) → List (Bytes × Entry) → Prop
  | nil : FitsAll [] []
  | cons {k v e l m} : e.Fits v → FitsAll l m → FitsAll ((k, v) :: l) ((k, e) :: m)

/-- The object `p` is a proper tree that represents the map `m`. -/
def IsMap (E : Env) (h : Heap) (p : Ptr) (m : List (Bytes × Entry)) : Prop :=
  ∃ ku kvs F, Good h (some p) (.obj ku kvs) F ∧ UniqueNames E (.obj ku kvs) ∧ (∀ kv ∈ kvs, kv.2 ≠ .nil) ∧
    FitsAll (members E (.obj ku kvs)) m

theorem FitsAll.put {m : Bytes → Bytes → Bool} {l : List (Bytes × Val)} {a : List (Bytes × Entry)} (h : FitsAll l a) (k : Bytes) {e : Entry} {v : Val}
    (he : e.Fits v) : FitsAll (Assoc.put m l k v) (Assoc.put m a k e) := by
  induction h with
  | nil => exact .cons he .nil
  | @cons k' v' e' l m' h1 h2 ih =>
    simp only [Assoc.put]
    split
    · exact .cons he h2
    · exact .cons h1 ih

theorem FitsAll.del {m : Bytes → Bytes → Bool} {l : List (Bytes × Val)} {a : List (Bytes × Entry)} (h : FitsAll l a) (k : Bytes) :
    FitsAll (Assoc.del m l k) (Assoc.del m a k) := by
  induction h with
  | nil => exact .nil
  | @cons k' v' e' l m' h1 h2 ih =>
    simp only [Assoc.del]
    split
    · exact h2
    · exact .cons h1 ih

theorem FitsAll.get {m : Bytes → Bytes → Bool} {l : List (Bytes × Val)} {a : List (Bytes × Entry)} (h : FitsAll l a) (k : Bytes) :
    (Assoc.get m l k = none ∧ Assoc.get m a k = none) ∨ ∃ v e, Assoc.get m l k = some v ∧ Assoc.get m a k = some e ∧ e.Fits v := by
  induction h with
  | nil => exact Or.inl ⟨rfl, rfl⟩
  | @cons k' v' e' l m' h1 h2 ih =>
    simp only [Assoc.get]
    split
    · exact Or.inr ⟨_, _, rfl, rfl, h1⟩
    · exact ih

theorem noNil_objPut {E : Env} {ku : Bool} {kvs : List (Bytes × Val)} {name : Bytes} {w : Val} (h : ∀ kv ∈ kvs, kv.2 ≠ .nil) (hw : w ≠ .nil) :
    ∀ kv ∈ (setKeyValueObj E ku kvs name w).2, kv.2 ≠ .nil := by
  have hs := indexByName_snd E ku kvs name
  unfold setKeyValueObj
  rcases hi : indexByName E ku kvs name with ⟨i, ku', kvs'⟩
  rw [hi] at hs
  simp only at hs
  have h' : ∀ x ∈ kvs'.map Prod.snd, x ≠ .nil := by
    rw [hs]; intro x hx; obtain ⟨kv, hkv, rfl⟩ := List.mem_map.1 hx; exact h kv hkv
  cases i with
  | none =>
    simp only [List.mem_append, List.mem_singleton]
    rintro kv (hkv | rfl)
    · exact h' _ (List.mem_map_of_mem hkv)
    · exact hw
  | some i =>
    simp only
    intro kv hkv
    have : kv.2 ∈ (kvs'.map Prod.snd).set i w := by
      rw [← modify_snd]; exact List.mem_map_of_mem hkv
    rcases List.mem_or_eq_of_mem_set this with h1 | h1
    · exact h' _ h1
    · rw [h1]; exact hw

theorem noNil_index {E : Env} {ku : Bool} {kvs : List (Bytes × Val)} {name : Bytes} (h : ∀ kv ∈ kvs, kv.2 ≠ .nil) :
    ∀ kv ∈ (indexByName E ku kvs name).2.2, kv.2 ≠ .nil := by
  have hs := indexByName_snd E ku kvs name
  intro kv hkv
  have : kv.2 ∈ kvs.map Prod.snd := by rw [← hs]; exact List.mem_map_of_mem hkv
  obtain ⟨kv', h1, h2⟩ := List.mem_map.1 this
  rw [← h2]; exact h kv' h1

/-- An operation that leaves `objPut … w` behind is a write of `w`. -/
theorem IsMap.ofPut {E : Env} (L : KeyLaws E) {ku : Bool} {kvs : List (Bytes × Val)} {m : List (Bytes × Entry)}
    (hu : UniqueNames E (.obj ku kvs)) (hn : ∀ kv ∈ kvs, kv.2 ≠ .nil) (hf : FitsAll (members E (.obj ku kvs)) m)
    {h' : Heap} {p : Ptr} {k : Bytes} {w : Val} {F' : List Ptr} (g : Good h' (some p) (objPut E ku kvs k w) F') (hw : w ≠ .nil) {e : Entry} (he : e.Fits w) :
    IsMap E h' p (Assoc.put E.keyMatch m k e) := by
  refine ⟨_, _, F', g, ?_, noNil_objPut hn hw, ?_⟩
  · have := members_objPut L ku kvs hu k w
    unfold UniqueNames
    unfold objPut at this
    rw [this]
    exact Assoc.put_distinct hu k w
  · have := members_objPut L ku kvs hu k w
    unfold objPut at this
    rw [this]
    exact hf.put k he

theorem noNil_old {E : Env} {ku : Bool} {kvs : List (Bytes × Val)} (h : ∀ kv ∈ kvs, kv.2 ≠ .nil) (k : Bytes) : objOld E ku kvs k ≠ some .nil := by
  unfold objOld
  intro he
  simp only [Option.bind_eq_some_iff] at he
  obtain ⟨i, -, hi⟩ := he
  obtain ⟨kv, hkv, e⟩ := List.mem_map.1 (List.mem_of_getElem? hi)
  exact h kv hkv e

/-- The constants as trees. -/
theorem const_good {h : Heap} (I : Inv h) (b : Bool) : Good h (some (if b then trueP else falseP)) (if b then .tru else .fls) [] := by
  refine ⟨I, ?_, by simp, by simp⟩
  cases b
  · refine ⟨falseP, by simp, by simp [foot, falseP], ?_⟩
    have := I.const falseP (by decide)
    have e : constVT falseP = .false := by decide
    rw [e] at this
    simp [leafOf, this]
  · refine ⟨trueP, by simp, by simp [foot, trueP], ?_⟩
    have := I.const trueP (by decide)
    have e : constVT trueP = .true := by decide
    rw [e] at this
    simp [leafOf, this]

/-- One operation: it does not panic and it does to the object what the specification does to the map.
Missing: storing nil (a later write panics, see `C29_nil_panics`), objects with nil members or repeated names. -/
theorem C29_step_partial {E : Env} (L : KeyLaws E) {h : Heap} {p : Ptr} {m : List (Bytes × Entry)} (hm : IsMap E h p m) (o : KeyOp) (ho : o.Ok h p) :
    ∃ h', o.run E h p = .ok h' ∧ IsMap E h' p (o.spec E m) ∧
      ∀ v F, Good h (some p) v F → Frame h F h' := by
  obtain ⟨ku, kvs, F, g, hu, hn, hf⟩ := hm
  have hframe : ∀ {h'}, Frame h F h' → ∀ v F, Good h (some p) v F → Frame h F h' := by
    intro h' fr v F2 g2
    rw [← (rep_det g.rep g2.rep).2]; exact fr
  cases o with
  | setString k s =>
    obtain ⟨q, h1, w, he, h5, hs, Fq, gq, hupd⟩ := setKey_then E g k .string (noNil_old hn k)
    have hwv := hs.vt
    have : ∃ s0, w = .str s0 := by cases w <;> simp [Val.vt] at hwv <;> exact ⟨_, rfl⟩
    obtain ⟨s0, rfl⟩ := this
    obtain ⟨F', u⟩ := hupd _ _ _ (setStr_upd gq h5 s)
    exact ⟨_, by simp [KeyOp.run, setKeyString, he], IsMap.ofPut L hu hn hf u.good (by simp) rfl, hframe u.frame⟩
  | setInt k x =>
    obtain ⟨q, h1, w, he, h5, hs, Fq, gq, hupd⟩ := setKey_then E g k .int (noNil_old hn k)
    obtain ⟨e, u1, -⟩ := setInt_upd gq h5 x
    obtain ⟨F', u⟩ := hupd _ _ _ u1
    exact ⟨_, by simp [KeyOp.run, setKeyInt, he], IsMap.ofPut L hu hn hf u.good (by simp) ⟨e, rfl⟩, hframe u.frame⟩
  | setDouble k x =>
    obtain ⟨q, h1, w, he, h5, hs, Fq, gq, hupd⟩ := setKey_then E g k .double (noNil_old hn k)
    have u1 := setDouble_upd gq h5 x
    rw [hs.vt.1] at u1
    obtain ⟨F', u⟩ := hupd _ _ _ u1
    exact ⟨_, by simp [KeyOp.run, setKeyDouble, he], IsMap.ofPut L hu hn hf u.good (by simp) rfl, hframe u.frame⟩
  | setFloat k x =>
    obtain ⟨q, h1, w, he, h5, hs, Fq, gq, hupd⟩ := setKey_then E g k .float (noNil_old hn k)
    obtain ⟨c, u1⟩ := setFloat_upd gq h5 x
    obtain ⟨F', u⟩ := hupd _ _ _ u1
    exact ⟨_, by simp [KeyOp.run, setKeyFloat, he], IsMap.ofPut L hu hn hf u.good (by simp) ⟨_, by simp, rfl⟩, hframe u.frame⟩
  | setBool k b =>
    obtain ⟨F', u⟩ := setKeyValue_obj E g k (const_good g.inv b) (by simp)
    exact ⟨_, rfl, IsMap.ofPut L hu hn hf u.good (by cases b <;> simp) rfl, hframe u.frame⟩
  | setValue k q w =>
    obtain ⟨G, gw, hd⟩ := ho
    obtain ⟨F', u⟩ := setKeyValue_obj E g k gw (fun x hx => hd _ _ g x hx)
    exact ⟨_, rfl, IsMap.ofPut L hu hn hf u.good (rep_ne_nil gw.rep) rfl, hframe u.frame⟩
  | remove k =>
    obtain ⟨F', u⟩ := removeKey_obj E g k
    refine ⟨_, rfl, ?_, hframe u.frame⟩
    have hmem := members_objDel L ku kvs hu k
    have hnn := @noNil_index E ku kvs k hn
    unfold objDel at u hmem
    rcases hi : indexByName E ku kvs k with ⟨i, ku', kvs'⟩
    rw [hi] at u hmem hnn
    cases i with
    | none =>
      refine ⟨_, _, F', u.good, ?_, hnn, ?_⟩
      · unfold UniqueNames; rw [hmem]; exact Assoc.del_distinct hu k
      · rw [hmem]; exact hf.del k
    | some i =>
      refine ⟨_, _, F', u.good, ?_, fun kv hkv => hnn kv (List.mem_of_mem_eraseIdx hkv), ?_⟩
      · unfold UniqueNames; rw [hmem]; exact Assoc.del_distinct hu k
      · rw [hmem]; exact hf.del k
  | lookup k =>
    obtain ⟨u, -⟩ := valueByName_obj E g k
    refine ⟨_, rfl, ⟨_, _, F, u.good, ?_, noNil_index hn, ?_⟩, hframe u.frame⟩
    · unfold UniqueNames; rw [members_index]; exact hu
    · rw [members_index]; exact hf

/-- Histories: key operations on the object `p`, interleaved with anything else the program does that leaves the object
alone (a step that keeps every tree `p` represents). -/
inductive History (E : Env) (p : Ptr) : Heap → List KeyOp → Heap → Prop
  | done (h) : History E p h [] h
  | op {h h' h''} (o : KeyOp) {os} : o.Ok h p → o.run E h p = .ok h' → History E p h' os h'' → History E p h (o :: os) h''
  | other {h h' h'' os} : (∀ v F, Good h (some p) v F → Good h' (some p) v F) → History E p h' os h'' → History E p h os h''

/-- Any history of key operations on an object behaves as on an insertion-ordered map.
Missing: histories that store nil, objects with nil members or repeated names. -/
theorem C29_history_partial {E : Env} (L : KeyLaws E) {h h' : Heap} {p : Ptr} {os : List KeyOp} (hist : History E p h os h')
    {m : List (Bytes × Entry)} (hm : IsMap E h p m) : IsMap E h' p (os.foldl (KeyOp.spec E) m) := by
  induction hist generalizing m with
  | done => exact hm
  | op o ho hr _ ih =>
    obtain ⟨h1, e, hm1, -⟩ := C29_step_partial L hm o ho
    rw [hr] at e
    cases e
    exact ih hm1
  | other hk _ ih =>
    obtain ⟨ku, kvs, F, g, hu, hn, hf⟩ := hm
    exact ih ⟨ku, kvs, F, hk _ _ g, hu, hn, hf⟩

/-- Reading: the member found is the one the map has under that name.
Missing: objects with nil members or repeated names. -/
theorem C29_read_partial {E : Env} (L : KeyLaws E) {h : Heap} {p : Ptr} {m : List (Bytes × Entry)} (hm : IsMap E h p m) (k : Bytes) :
    match Assoc.get E.keyMatch m k with
    | none => (valueByName E h p k).1 = none
    | some e => ∃ q v G, (valueByName E h p k).1 = some q ∧ Good (valueByName E h p k).2 (some q) v G ∧ e.Fits v := by
  obtain ⟨ku, kvs, F, g, hu, hn, hf⟩ := hm
  obtain ⟨-, G, gg, -⟩ := valueByName_obj E g k
  have hnn := @noNil_old E ku kvs hn k
  rw [objOld_members L ku kvs hu] at gg hnn
  rcases hf.get (m := E.keyMatch) k with ⟨h1, h2⟩ | ⟨v, e, h1, h2, h3⟩
  · rw [h1] at gg
    rw [h2]
    exact gg.rep.1
  · rw [h1] at gg hnn
    rw [h2]
    simp only [Option.getD_some] at gg
    rcases rep_cases gg.rep with ⟨e1, -⟩ | ⟨q, _, e1, _⟩ | ⟨q, _, e1, _⟩
    · exact absurd (congrArg some e1) hnn
    · exact ⟨q, v, G, e1, e1 ▸ gg, h3⟩
    · exact ⟨q, v, G, e1, e1 ▸ gg, h3⟩

/-- In the map: a read after a write returns what was written. -/
theorem C29_get_same {E : Env} (m : List (Bytes × Entry)) (k : Bytes) (e : Entry) :
    Assoc.get E.keyMatch (Assoc.put E.keyMatch m k e) k = some e := Assoc.get_put_same (Env.keyMatch_refl E) m k e

/-- In the map: other keys are unaffected by a write. -/
theorem C29_get_other {E : Env} (L : KeyLaws E) (m : List (Bytes × Entry)) (k k2 : Bytes) (e : Entry) (hne : E.keyMatch k k2 = false) :
    Assoc.get E.keyMatch (Assoc.put E.keyMatch m k e) k2 = Assoc.get E.keyMatch m k2 := by
  refine Assoc.get_put_other m k k2 e hne ?_
  intro kv _ h1
  cases h2 : E.keyMatch kv.1 k2 with
  | false => rfl
  | true => rw [L.match_trans (L.match_symm h1) h2] at hne; cases hne

/-- In the map: the order is the order of first insertion. -/
theorem C29_order {E : Env} (m : List (Bytes × Entry)) (k : Bytes) (e : Entry) :
    (Assoc.put E.keyMatch m k e).map Prod.fst =
      if (m.any fun kv => E.keyMatch kv.1 k) then m.map Prod.fst else m.map Prod.fst ++ [k] := Assoc.put_keys m k e

/-- The operations may be applied to an object anywhere inside a bigger value: exactly that sub-tree is replaced. -/
theorem C29_nested {h h' : Heap} {a : Option Ptr} {r v : Val} {R : List Ptr} {π : List Nat} (g : Good h a r R) (hs : Val.sub r π = some v) :
    ∃ b F, ptrAt h.mem a π = some b ∧ Good h b v F ∧
      ∀ v' F', Upd h F h' b v' F' → ∃ R', Upd h R h' a (Val.subst r π v') R' := by
  obtain ⟨b, F, h1, h2, -, h4⟩ := g.inside hs
  exact ⟨b, F, h1, h2, fun v' F' u => h4 [] h' v' F' u (by simp)⟩

theorem setKey_nil_panics (E : Env) {h : Heap} {p : Ptr} {ku : Bool} {kvs : List (Bytes × Val)} {F : List Ptr}
    (g : Good h (some p) (.obj ku kvs) F) (k : Bytes) (t : VT) (hnil : objOld E ku kvs k = some .nil) :
    setKey E h p k t = .panic := by
  have hdt := rep_dt g.rep
  obtain ⟨hidx, u1, -⟩ := objIndex_upd E g k
  unfold objOld at hnil
  simp only [Option.bind_eq_some_iff] at hnil
  obtain ⟨i, hi, hx⟩ := hnil
  have hsnd := indexByName_snd E ku kvs k
  obtain ⟨b, Fi, hb, gb, -⟩ := u1.good.kid (i := i) (x := .nil) (by simp only [Val.kids, hsnd, hx])
  have hbn : b = none := gb.rep.1
  subst hbn
  rw [kids_obj (rep_dt u1.good.rep)] at hb
  unfold setKey setKeyCached
  have hdt' : (h.mem p).dt = .object := hdt
  simp only [hdt', if_true, if_false, reduceCtorEq, ne_eq, not_true_eq_false, not_false_eq_true, true_and, and_true, false_and, and_false]
  rcases ho : objIndex E h p k with ⟨i', h1⟩
  rw [ho] at hidx hb
  simp only at hidx hb
  rw [hidx, hi]
  have hget : ((h1.mem p).kvs[i]?).bind Prod.snd = none := by
    rw [List.getElem?_map] at hb
    cases hkv : (h1.mem p).kvs[i]? with
    | none => rfl
    | some kv => rw [hkv] at hb; simp at hb; simp [hb]
  simp only [hget, Res.bind_panic]

/-- A member that was set to nil is the one case where a later write fails: `SetKeyInt` dereferences it. -/
theorem C29_nil_panics (E : Env) {h : Heap} {p : Ptr} {ku : Bool} {kvs : List (Bytes × Val)} {F : List Ptr}
    (g : Good h (some p) (.obj ku kvs) F) (k : Bytes) (x : BitVec 64) (hnil : objOld E ku kvs k = some .nil) :
    setKeyInt E h p k x = .panic := by
  unfold setKeyInt
  rw [setKey_nil_panics E g k .int hnil]
  rfl

/-- A new object is the empty map. -/
theorem isMap_new {E : Env} {h : Heap} (I : Inv h) : IsMap E (newObject h false none).2 (newObject h false none).1 [] := by
  obtain ⟨gr, hw, hn, h5, hm, -⟩ := new_spec I { Node.zero with dt := .object } (fun c hc => by simp [Node.zero] at hc)
  have hm : (newObject h false none).2.mem (newObject h false none).1 = { Node.zero with dt := .object } := hm
  refine ⟨false, [], [_], ⟨gr.inv, ⟨_, [], rfl, h5, rfl, ?_, ?_, ?_⟩, by simp, ?_⟩, by simp [UniqueNames, members], by simp, .nil⟩
  · rw [hm]
  · rw [hm]; rfl
  · rw [hm]; exact ⟨rfl, rfl⟩
  · intro q hq; simp at hq; subst hq; exact hn

/-- Operations other than `SetKeyValue` can always be performed. -/
theorem history_exists {E : Env} (L : KeyLaws E) {p : Ptr} : ∀ (os : List KeyOp) {h : Heap} {m : List (Bytes × Entry)}, IsMap E h p m →
    (∀ o ∈ os, ∀ h, o.Ok h p) → ∃ h', History E p h os h'
  | [], h, _, _, _ => ⟨h, .done h⟩
  | o :: os, h, m, hm, ho => by
    obtain ⟨h1, e, hm1, -⟩ := C29_step_partial L hm o (ho o (by simp) h)
    obtain ⟨h2, hh⟩ := history_exists L os hm1 (fun o' h' => ho o' (by simp [h']))
    exact ⟨h2, .op o (ho o (by simp) h) e hh⟩

/-- Non-vacuity: starting from a new object `x := NewObject(false)`: `x.SetKeyInt("a",7); x.SetKeyBool("b",true);
x.SetKeyString("A","z"); x.RemoveKey("b")` with `IgnoreCase` leaves one member `a` with the string `z`. -/
example :
    let E := { envEx with ignoreCase := true }
    let r := newObject (Heap.init id) false none
    ∃ h', History E r.1 r.2 [.setInt [97] 7, .setBool [98] true, .setString [65] [122], .remove [98]] h' ∧
      IsMap E h' r.1 [([97], .str [122])] := by
  intro E r
  have hm : IsMap E r.2 r.1 [] := isMap_new (inv_init id)
  obtain ⟨h', hh⟩ := history_exists (envEx_keyLaws true) [.setInt [97] 7, .setBool [98] true, .setString [65] [122], .remove [98]] hm
    (by intro o ho h; simp at ho; rcases ho with rfl | rfl | rfl | rfl <;> trivial)
  exact ⟨h', hh, C29_history_partial (envEx_keyLaws true) hh hm⟩

/-- Non-vacuity of `KeyOp.setValue`: the array at address 7 of the example is a value that a new object can adopt. -/
example : ∃ G, Good exHeap (some 7) (.arr [.tru, .nil, .str [104]]) G ∧ ∀ q ∈ G, q ≠ 5 := ⟨_, exGood7, by decide⟩

/-- No history of key operations creates two members with the same name.
Missing: histories that store nil, objects with nil members. -/
theorem C30_unique_partial {E : Env} (L : KeyLaws E) {h h' : Heap} {p : Ptr} {os : List KeyOp} (hist : History E p h os h')
    {m : List (Bytes × Entry)} (hm : IsMap E h p m) :
    ∃ v F, Good h' (some p) v F ∧ v.vt = .object ∧ UniqueNames E v := by
  obtain ⟨ku, kvs, F, g, hu, -⟩ := C29_history_partial L hist hm
  exact ⟨_, F, g, rfl, hu⟩

/-- Which also means: two members never have the same key, and with `IgnoreCase` never keys that differ only in case. -/
theorem C30_keys_nodup {E : Env} {v : Val} (h : UniqueNames E v) :
    ((members E v).map Prod.fst).Nodup ∧
      (E.ignoreCase = true → ((members E v).map Prod.fst).Pairwise (fun a b => E.equalFold a b = false)) := by
  constructor
  · refine List.Pairwise.imp ?_ h
    rintro a b hab rfl
    rw [Env.keyMatch_refl] at hab; cases hab
  · intro hi
    refine List.Pairwise.imp ?_ h
    intro a b hab
    simp [Env.keyMatch, hi] at hab
    exact hab.1

/-! ## C32: arrays are lists -/

/-- Specification: replace inside the bounds, append outside of them. -/
def putAt (xs : List Val) (idx : Int) (w : Val) : List Val :=
  if 0 ≤ idx ∧ idx < xs.length then xs.set idx.toNat w else xs ++ [w]

theorem arrPut_putAt (xs : List Val) (idx : Int) (w : Val) : arrPut xs idx w = .arr (putAt xs idx w) := by
  unfold arrPut putAt
  by_cases h : 0 ≤ idx ∧ idx < xs.length
  · rw [if_pos (inRange_iff.2 h), if_pos h]
  · rw [if_neg (fun x => h (inRange_iff.1 x)), if_neg h]

theorem C32_setIndexInt {h : Heap} {p : Ptr} {xs : List Val} {F : List Ptr} (g : Good h (some p) (.arr xs) F) (idx : Int) (x : BitVec 64) :
    ∃ e F', Upd h F (setIndexInt h p idx x) (some p) (.arr (putAt xs idx (.int e x))) F' := by
  obtain ⟨w, Fq, hs, gq, h5, hupd⟩ := setIndex_then g idx .int
  obtain ⟨e, u1, -⟩ := setInt_upd gq (h5 rfl) x
  obtain ⟨F', u⟩ := hupd _ _ _ u1
  exact ⟨e, F', arrPut_putAt xs idx _ ▸ u⟩

theorem C32_setIndexString {h : Heap} {p : Ptr} {xs : List Val} {F : List Ptr} (g : Good h (some p) (.arr xs) F) (idx : Int) (s : Bytes) :
    ∃ F', Upd h F (setIndexString h p idx s) (some p) (.arr (putAt xs idx (.str s))) F' := by
  obtain ⟨w, Fq, hs, gq, h5, hupd⟩ := setIndex_then g idx .string
  have hwv := hs.vt
  have : ∃ s0, w = .str s0 := by cases w <;> simp [Val.vt] at hwv <;> exact ⟨_, rfl⟩
  obtain ⟨s0, rfl⟩ := this
  obtain ⟨F', u⟩ := hupd _ _ _ (setStr_upd gq (h5 rfl) s)
  exact ⟨F', arrPut_putAt xs idx _ ▸ u⟩

theorem C32_setIndexDouble {h : Heap} {p : Ptr} {xs : List Val} {F : List Ptr} (g : Good h (some p) (.arr xs) F) (idx : Int) (x : F64) :
    ∃ F', Upd h F (setIndexDouble h p idx x) (some p) (.arr (putAt xs idx (.double x))) F' := by
  obtain ⟨w, Fq, hs, gq, h5, hupd⟩ := setIndex_then g idx .double
  have u1 := setDouble_upd gq (h5 rfl) x
  rw [hs.vt.1] at u1
  obtain ⟨F', u⟩ := hupd _ _ _ u1
  exact ⟨F', arrPut_putAt xs idx _ ▸ u⟩

theorem C32_setIndexTime {h : Heap} {p : Ptr} {xs : List Val} {F : List Ptr} (g : Good h (some p) (.arr xs) F) (idx : Int) (x : F64) :
    ∃ F', Upd h F (setIndexTime h p idx x) (some p) (.arr (putAt xs idx (.dateTime x))) F' := by
  obtain ⟨w, Fq, hs, gq, h5, hupd⟩ := setIndex_then g idx .dateTime
  have u1 := setTime_upd gq (h5 rfl) x
  rw [hs.vt.1] at u1
  obtain ⟨F', u⟩ := hupd _ _ _ u1
  exact ⟨F', arrPut_putAt xs idx _ ▸ u⟩

theorem C32_setIndexFloat {h : Heap} {p : Ptr} {xs : List Val} {F : List Ptr} (g : Good h (some p) (.arr xs) F) (idx : Int) (x : F32) :
    ∃ c F', lo32 c = x ∧ Upd h F (setIndexFloat h p idx x) (some p) (.arr (putAt xs idx (.float c))) F' := by
  obtain ⟨w, Fq, hs, gq, h5, hupd⟩ := setIndex_then g idx .float
  obtain ⟨c, u1⟩ := setFloat_upd gq (h5 rfl) x
  obtain ⟨F', u⟩ := hupd _ _ _ u1
  exact ⟨_, F', by simp, arrPut_putAt xs idx _ ▸ u⟩

theorem C32_setIndexBool {h : Heap} {p : Ptr} {xs : List Val} {F : List Ptr} (g : Good h (some p) (.arr xs) F) (idx : Int) (b : Bool) :
    ∃ F', Upd h F (setIndexBool h p idx b) (some p) (.arr (putAt xs idx (if b then .tru else .fls))) F' := by
  obtain ⟨w, Fq, hs, gq, -, hupd⟩ := setIndex_then g idx (if b then .true else .false)
  have hwv := hs.vt
  have hw : w = if b then .tru else .fls := by
    cases b <;> cases w <;> simp [Val.vt] at hwv <;> rfl
  obtain ⟨F', u⟩ := hupd _ _ _ gq.upd_refl
  rw [hw] at u
  exact ⟨F', arrPut_putAt xs idx _ ▸ u⟩

theorem C32_setIndexValue {h : Heap} {p : Ptr} {xs : List Val} {F : List Ptr} (g : Good h (some p) (.arr xs) F) (idx : Int)
    {b : Option Ptr} {w : Val} {G : List Ptr} (gw : Good h b w G) (hd : ∀ q ∈ G, q ∉ F) :
    ∃ F', UpdX G h F (setIndexValue h p idx b) (some p) (.arr (putAt xs idx w)) F' := by
  obtain ⟨F', u⟩ := setIndexValue_arr g idx gw hd
  exact ⟨F', arrPut_putAt xs idx _ ▸ u⟩

/-- `SetIndex` returns the element, which keeps its value if it already had the requested type. -/
theorem C32_setIndex {h : Heap} {p : Ptr} {xs : List Val} {F : List Ptr} (g : Good h (some p) (.arr xs) F) (idx : Int) (t : VT) :
    ∃ w G F', Upd h F (setIndex h p idx t).2 (some p) (.arr (putAt xs idx w)) F' ∧
      Good (setIndex h p idx t).2 (some (setIndex h p idx t).1) w G ∧ w.vt = t ∧
      (∀ x, 0 ≤ idx → xs[idx.toNat]? = some x → x ≠ .nil → x.vt = t → w = x) := by
  obtain ⟨w, Fq, hs, gq, h5, hupd⟩ := setIndex_then g idx t
  obtain ⟨F', u⟩ := hupd _ _ _ gq.upd_refl
  refine ⟨w, Fq, F', arrPut_putAt xs idx _ ▸ u, gq, hs.vt.1, ?_⟩
  intro x h0 hx hxn hvt
  have hlt := (List.getElem?_eq_some_iff.1 hx).1
  unfold arrOld at hs
  rw [if_pos (inRange_iff.2 ⟨h0, by omega⟩), hx] at hs
  simp only [Slot] at hs
  rw [if_pos ⟨hxn, hvt⟩] at hs
  exact hs

theorem insertIdx_take_drop {α : Type} (l : List α) (i : Nat) (x : α) (h : i ≤ l.length) : l.insertIdx i x = l.take i ++ x :: l.drop i := by
  induction l generalizing i with
  | nil => cases i <;> simp_all
  | cons a l ih => cases i with
    | zero => simp
    | succ i => simp at h; simp [ih i h]

/-- `InsertValue` inserts an empty value of the given type before position `idx` (clamped to the ends). -/
theorem C32_insert {h : Heap} {p : Ptr} {xs : List Val} {F : List Ptr} (g : Good h (some p) (.arr xs) F) (idx : Int) (t : VT) :
    ∃ c F', Upd h F (insertValue h p idx t).2 (some p) (.arr (xs.insertIdx (min idx.toNat xs.length) (blankVal t c))) F' := by
  obtain ⟨c, F', u⟩ := insertValue_arr g idx t
  refine ⟨c, F', ?_⟩
  have : arrIns xs idx (blankVal t c) = .arr (xs.insertIdx (min idx.toNat xs.length) (blankVal t c)) := by
    unfold arrIns
    congr 1
    rw [insertIdx_take_drop _ _ _ (by omega)]
    by_cases hle : idx.toNat ≤ xs.length
    · rw [Nat.min_eq_left hle]; simp
    · rw [Nat.min_eq_right (by omega), List.take_of_length_le (by omega), List.drop_of_length_le (by omega)]; simp
  rw [← this]; exact u

/-- `Append` appends (it passes `math.MaxInt32` as the position, so to arrays of at most that length).
Missing: longer arrays. -/
theorem C32_append_partial {h : Heap} {p : Ptr} {xs : List Val} {F : List Ptr} (g : Good h (some p) (.arr xs) F) (t : VT) (hl : xs.length ≤ 2147483647) :
    ∃ c F', Upd h F (append h p t).2 (some p) (.arr (xs ++ [blankVal t c])) F' := by
  obtain ⟨c, F', u⟩ := insertValue_arr g 2147483647 t
  refine ⟨c, F', ?_⟩
  have : arrIns xs 2147483647 (blankVal t c) = .arr (xs ++ [blankVal t c]) := by
    unfold arrIns
    rw [List.take_of_length_le (by simpa using hl), List.drop_of_length_le (by simpa using hl)]; simp
  rw [← this]; exact u

/-- `RemoveIndex` deletes that element; out of bounds it does nothing. -/
theorem C32_remove {h : Heap} {p : Ptr} {xs : List Val} {F : List Ptr} (g : Good h (some p) (.arr xs) F) (idx : Int) :
    ∃ F', Upd h F (removeIndex h p idx) (some p) (.arr (if 0 ≤ idx then xs.eraseIdx idx.toNat else xs)) F' := by
  obtain ⟨F', u⟩ := removeIndex_arr g idx
  refine ⟨F', ?_⟩
  have : (if 0 ≤ idx ∧ idx < xs.length then xs.take idx.toNat ++ xs.drop (idx.toNat + 1) else xs) =
      if 0 ≤ idx then xs.eraseIdx idx.toNat else xs := by
    by_cases h0 : 0 ≤ idx
    · by_cases h1 : idx < xs.length
      · rw [if_pos ⟨h0, h1⟩, if_pos h0, List.eraseIdx_eq_take_drop_succ]
      · rw [if_neg (fun h => h1 h.2), if_pos h0, List.eraseIdx_of_length_le (by omega)]
    · rw [if_neg (fun h => h0 h.1), if_neg h0]
  rw [this] at u; exact u

/-- All other elements keep value and order. -/
theorem C32_others (xs : List Val) (idx : Int) (w : Val) (j : Nat) (hj : (j : Int) ≠ idx) (hlt : j < xs.length) :
    (putAt xs idx w)[j]? = xs[j]? := by
  unfold putAt
  split
  · rename_i h
    rw [List.getElem?_set_ne (by omega)]
  · rw [List.getElem?_append_left hlt]

/-- Non-vacuity: the array at address 7 of the example; its nil element is replaced, index 9 appends. -/
example : ∃ e F', Upd exHeap [7, 8] (setIndexInt exHeap 7 1 5) (some 7) (.arr [.tru, .int e 5, .str [104]]) F' :=
  C32_setIndexInt exGood7 1 5
example : ∃ e F', Upd exHeap [7, 8] (setIndexInt exHeap 7 9 5) (some 7) (.arr [.tru, .nil, .str [104], .int e 5]) F' :=
  C32_setIndexInt exGood7 9 5
example : ∃ F', Upd exHeap [7, 8] (removeIndex exHeap 7 0) (some 7) (.arr [.nil, .str [104]]) F' := C32_remove exGood7 0

/-! ## C36: scalars -/

/-- `SetInt` then `Int`. -/
theorem C36_int (E : Env) {h : Heap} {p : Ptr} (hp : shared p = false) (x : BitVec 64) :
    getInt E ((setInt h p x).mem p) = x ∧ ((setInt h p x).mem p).dt = .int := by
  unfold setInt
  have h5 : 5 ≤ p := by simpa [shared] using hp
  by_cases hi : (h.mem p).dt = .int
  · rw [if_pos hi]; simp [getInt, hi]
  · rw [if_neg hi]; simp [getInt, reset_mem h5, Node.reset]

/-- `SetString` then `String`. -/
theorem C36_string (E : Env) (json : Res Bytes) {h : Heap} {p : Ptr} (hp : shared p = false) (s : Bytes) :
    getString E json ((setString h p s).mem p) = (.ok s, (setString h p s).mem p) := by
  suffices hh : ((setString h p s).mem p).dt = .string ∧ ((setString h p s).mem p).str = s by
    unfold getString; rw [hh.1]; simp only; rw [hh.2]
  unfold setString
  have h5 : 5 ≤ p := by simpa [shared] using hp
  by_cases hi : (h.mem p).dt = .string
  · rw [if_pos hi]; simp [hi]
  · rw [if_neg hi]; simp [reset_mem h5, Node.reset]

/-- `SetDouble` then `Double`. -/
theorem C36_double (E : Env) {h : Heap} {p : Ptr} (hp : shared p = false) (x : F64) : getDouble E ((setDouble h p x).mem p) = x := by
  unfold setDouble
  have h5 : 5 ≤ p := by simpa [shared] using hp
  rw [if_neg (by simp [hp])]
  by_cases hi : (h.mem p).dt ≠ .double ∧ (h.mem p).dt ≠ .dateTime
  · rw [if_pos hi]; simp [getDouble, reset_mem h5, Node.reset]
  · rw [if_neg hi]
    rw [upd_mem_same]
    unfold getDouble
    simp only
    cases hd : (h.mem p).dt <;> simp_all

/-- `SetFloat` then `Float`. -/
theorem C36_float (E : Env) {h : Heap} {p : Ptr} (hp : shared p = false) (x : F32) : getFloat E ((setFloat h p x).mem p) = x := by
  unfold setFloat
  have h5 : 5 ≤ p := by simpa [shared] using hp
  rw [if_neg (by simp [hp])]
  by_cases hi : (h.mem p).dt ≠ .float
  · rw [if_pos hi]; simp [getFloat, reset_mem h5, Node.reset]
  · rw [if_neg hi]
    have hi : (h.mem p).dt = .float := by simpa using hi
    simp [getFloat, hi]

/-- `SetBool` then `Bool`. -/
theorem C36_bool (E : Env) {h : Heap} {p : Ptr} (hp : shared p = false) (b : Bool) : getBool E ((setBool h p b).mem p) = b := by
  unfold setBool
  have h5 : 5 ≤ p := by simpa [shared] using hp
  rw [if_neg (by simp [hp])]
  cases b <;> simp [getBool, reset_mem h5, Node.reset]

/-- And on a tree: the value is replaced as a whole, nothing else changes. -/
theorem C36_tree {h : Heap} {p : Ptr} {v : Val} {F : List Ptr} (g : Good h (some p) v F) (hp : shared p = false) :
    (∀ x, ∃ e, Upd h F (setInt h p x) (some p) (.int e x) [p]) ∧ (∀ s, Upd h F (setString h p s) (some p) (.str s) [p]) ∧
    (∀ b, Upd h F (setBool h p b) (some p) (if b then .tru else .fls) [p]) ∧
    (∀ x, Upd h F (setDouble h p x) (some p) (if v.vt = .dateTime then .dateTime x else .double x) [p]) ∧
    (∀ x, ∃ c, lo32 c = x ∧ Upd h F (setFloat h p x) (some p) (.float c) [p]) := by
  have h5 : 5 ≤ p := by simpa [shared] using hp
  refine ⟨fun x => ?_, setString_upd g h5, setBool_upd g h5, setDouble_upd g h5, fun x => ?_⟩
  · obtain ⟨e, u, -⟩ := setInt_upd g h5 x; exact ⟨e, u⟩
  · obtain ⟨c, u⟩ := setFloat_upd g h5 x; exact ⟨_, by simp, u⟩

/-- Non-vacuity: address 7 of the example holds an array before. -/
example : getInt envEx ((setInt exHeap 7 5).mem 7) = 5 := (C36_int envEx rfl 5).1

/-! ## C42: reading a string -/

/-- `String` on the tree: a raw string becomes an ordinary one, anything else stays. -/
def afterString (E : Env) : Val → Val
  | .raw s => .str (E.unesc s)
  | v => v

/-- The model of `String` does that and touches nothing else. -/
theorem string_upd (E : Env) (json : Res Bytes) {h : Heap} {p : Ptr} {v : Val} {F : List Ptr} (g : Good h (some p) v F) :
    ∃ F', Upd h F (h.set p (getString E json (h.mem p)).2) (some p) (afterString E v) F' := by
  have hdt := rep_dt g.rep
  by_cases hr : v.vt = .rawString
  · have hne := rep_ne_nil g.rep
    obtain ⟨s, rfl⟩ : ∃ s, v = .raw s := by cases v <;> simp [Val.vt] at hr <;> first | exact ⟨_, rfl⟩ | contradiction
    obtain ⟨q, e, rfl, hl⟩ := g.rep
    cases e
    have h5 : 5 ≤ p := by
      rcases Nat.lt_or_ge p 5 with h1 | h1
      · have := g.inv.const p h1
        rw [hdt] at this
        have : p = 0 ∨ p = 1 ∨ p = 2 ∨ p = 3 ∨ p = 4 := by omega
        rcases this with rfl | rfl | rfl | rfl | rfl <;> cases ‹Val.vt _ = _›
      · exact h1
    rw [view_ge h5] at hl
    have hs : (h.mem p).str = s := by
      simp only [leafOf, hdt, hr, Option.some.injEq, Val.raw.injEq] at hl; exact hl
    have e : (getString E json (h.mem p)).2 = { h.mem p with dt := .string, str := E.unesc s } := by
      simp [getString, hdt, hr, hs]
    rw [e]
    exact ⟨[p], write_leaf g rfl h5 rfl rfl⟩
  · have e : (getString E json (h.mem p)).2 = h.mem p := by
      have : (h.mem p).dt ≠ .rawString := hdt ▸ hr
      unfold getString
      split <;> first | rfl | contradiction
    have e2 : h.set p (h.mem p) = h := by
      unfold Heap.set
      congr
      funext q
      split
      · rename_i hq; rw [hq]
      · rfl
    have e3 : afterString E v = v := by cases v <;> simp [afterString, Val.vt] at hr ⊢
    rw [e, e2, e3]
    exact ⟨F, g.upd_refl⟩

mutual
/-- `w` is `v` after `String()` has been called on some of the strings in it. -/
def ReadSome (E : Env) : Val → Val → Prop
  | .raw s, w => w = .raw s ∨ w = .str (E.unesc s)
  | .obj ku kvs, w => ∃ kvs', w = .obj ku kvs' ∧ ReadSomeM E kvs kvs'
  | .arr xs, w => ∃ xs', w = .arr xs' ∧ ReadSomeL E xs xs'
  | v, w => w = v
def ReadSomeL (E : Env) : List Val → List Val → Prop
  | [], ws => ws = []
  | v :: vs, ws => ∃ w ws', ws = w :: ws' ∧ ReadSome E v w ∧ ReadSomeL E vs ws'
def ReadSomeM (E : Env) : List (Bytes × Val) → List (Bytes × Val) → Prop
  | [], ws => ws = []
  | v :: vs, ws => ∃ w ws', ws = (v.1, w) :: ws' ∧ ReadSome E v.2 w ∧ ReadSomeM E vs ws'
end

theorem afterString_reads (E : Env) (v : Val) (h : Val.isLeaf v = true) : ReadSome E v (afterString E v) := by
  cases v <;> simp [Val.isLeaf] at h <;> simp [ReadSome, afterString]

theorem readSome_type {E : Env} {v w : Val} (h : ReadSome E v w) : Bson.elementType w = Bson.elementType v := by
  cases v <;> simp only [ReadSome] at h
  case raw => rcases h with rfl | rfl <;> rfl
  case obj => obtain ⟨_, rfl, _⟩ := h; rfl
  case arr => obtain ⟨_, rfl, _⟩ := h; rfl
  all_goals rw [h]

mutual
/-- BSON: the same bytes, whichever strings of the document have been read. -/
theorem C42_bson_partial (E : Env) : ∀ (v w : Val) (dst : Bytes), ReadSome E v w → Bson.writeValue E w dst = Bson.writeValue E v dst
  | .raw s, w, dst, h => by
    simp only [ReadSome] at h
    rcases h with rfl | rfl <;> rfl
  | .obj ku kvs, w, dst, h => by
    obtain ⟨kvs', rfl, h⟩ := h
    simp only [Bson.writeValue]
    rw [bson_members E ku kvs kvs' _ h]
  | .arr xs, w, dst, h => by
    obtain ⟨xs', rfl, h⟩ := h
    simp only [Bson.writeValue]
    rw [bson_elems E xs xs' 0 _ h]
  | .nil, w, _, h | .str _, w, _, h | .int _ _, w, _, h | .float _, w, _, h | .double _, w, _, h | .dateTime _, w, _, h
  | .bin _ _, w, _, h | .exbin _ _, w, _, h | .null, w, _, h | .tru, w, _, h | .fls, w, _, h | .nan, w, _, h | .inf, w, _, h => by
    simp only [ReadSome] at h; rw [h]
theorem bson_members (E : Env) (ku : Bool) : ∀ (vs ws : List (Bytes × Val)) (dst : Bytes), ReadSomeM E vs ws →
    Bson.writeMembers E ku ws dst = Bson.writeMembers E ku vs dst
  | [], ws, dst, h => by simp only [ReadSomeM] at h; rw [h]
  | (k, v) :: vs, ws, dst, h => by
    obtain ⟨w, ws', rfl, h1, h2⟩ := h
    simp only [Bson.writeMembers]
    rw [readSome_type h1, C42_bson_partial E v w _ h1]
    congr 1
    funext d
    exact bson_members E ku vs ws' d h2
theorem bson_elems (E : Env) : ∀ (vs ws : List Val) (i : Nat) (dst : Bytes), ReadSomeL E vs ws →
    Bson.writeElems E ws i dst = Bson.writeElems E vs i dst
  | [], ws, i, dst, h => by simp only [ReadSomeL] at h; rw [h]
  | v :: vs, ws, i, dst, h => by
    obtain ⟨w, ws', rfl, h1, h2⟩ := h
    simp only [Bson.writeElems]
    rw [readSome_type h1, C42_bson_partial E v w _ h1]
    congr 1
    funext d
    exact bson_elems E vs ws' (i + 1) d h2
end

/-- JSON with either escaping style: what stands between the quotes unescapes to the same string. -/
theorem C42_json_partial (E : Env) (L : Json.Spec.EscLaw E) (st : Json.Style) (hst : st ≠ .noEscape) (escDT : Bool) (s : Bytes) :
    ∃ t t', Json.value2Json E st escDT (.raw s) = .ok (34 :: t ++ [34]) ∧
      Json.value2Json E st escDT (afterString E (.raw s)) = .ok (34 :: t' ++ [34]) ∧ E.unesc t' = E.unesc t := by
  refine ⟨s, Json.strText E st (E.unesc s), by simp [Json.value2Json, Json.toJson], by simp [Json.value2Json, Json.toJson, afterString], ?_⟩
  cases st with
  | noEscape => exact absurd rfl hst
  | allEscape => exact L.inv _ _
  | onlyAnsi => exact L.inv _ _

/-- JSON without escaping (`JSE_NoEscape`): the text `"a\"b"` becomes `"a"b"`, which is not JSON any more. -/
theorem C42_noEscape_changes :
    Json.value2Json envEx .noEscape false (.raw [97, 92, 34, 98]) = .ok [34, 97, 92, 34, 98, 34] ∧
    Json.value2Json envEx .noEscape false (afterString envEx (.raw [97, 92, 34, 98])) = .ok [34, 97, 34, 98, 34] := by decide

/-- MessagePack: no change if the string contains no escapes. -/
theorem C42_msgpack_partial (E : Env) (s : Bytes) (h : E.unesc s = s) (dst : Bytes) :
    MsgPack.enc E (afterString E (.raw s)) dst = MsgPack.enc E (.raw s) dst := by
  simp only [afterString, h, MsgPack.enc]

/-- MessagePack writes a raw string as it stands, escapes included, and an ordinary one unescaped: for the JSON text `"\/"`
the bytes are `a2 5c 2f` before `String()` and `a1 2f` after it. -/
theorem C42_msgpack_changes : MsgPack.enc envEx (.raw [92, 47]) [] ≠ MsgPack.enc envEx (afterString envEx (.raw [92, 47])) [] := by decide

example : ReadSome envEx (.arr [.raw [92, 47], .raw [97]]) (.arr [.str [47], .raw [97]]) := by
  exact ⟨_, rfl, .str [47], [.raw [97]], rfl, Or.inr rfl, .raw [97], [], rfl, Or.inl rfl, rfl⟩

/-! ## C41: lookups do not disturb lookups -/

/-- A lookup leaves the meaning of the object as it was. -/
theorem C41_members (E : Env) {h : Heap} {p : Ptr} {ku : Bool} {kvs : List (Bytes × Val)} {F : List Ptr}
    (g : Good h (some p) (.obj ku kvs) F) (name : Bytes) :
    ∃ v, Upd h F (valueByName E h p name).2 (some p) v F ∧ v.vt = .object ∧ members E v = members E (.obj ku kvs) :=
  ⟨_, (valueByName_obj E g name).1, rfl, members_index E ku kvs name⟩

/-- The heap after a sequence of lookups. -/
def lookups (E : Env) (p : Ptr) (h : Heap) (names : List Bytes) : Heap := names.foldl (fun h n => (valueByName E h p n).2) h

/-- After any sequence of lookups (hits and misses) a lookup gives the same tree as before it. Missing for the full
property: objects with repeated names (see `C41_unstable`). -/
theorem C41_stable_partial {E : Env} (L : KeyLaws E) {h : Heap} {p : Ptr} {ku : Bool} {kvs : List (Bytes × Val)} {F : List Ptr}
    (g : Good h (some p) (.obj ku kvs) F) (hu : UniqueNames E (.obj ku kvs)) (names : List Bytes) (name : Bytes) :
    ∃ v G G', Good (valueByName E h p name).2 (valueByName E h p name).1 v G ∧
      Good (valueByName E (lookups E p h names) p name).2 (valueByName E (lookups E p h names) p name).1 v G' := by
  suffices hh : ∀ names h ku kvs, Good h (some p) (.obj ku kvs) F → UniqueNames E (.obj ku kvs) →
      ∃ G', Good (valueByName E (lookups E p h names) p name).2 (valueByName E (lookups E p h names) p name).1
        ((firstNamed E (.obj ku kvs) name).getD .nil) G' by
    obtain ⟨G, g1⟩ := hh [] h ku kvs g hu
    obtain ⟨G', g2⟩ := hh names h ku kvs g hu
    exact ⟨_, G, G', g1, g2⟩
  intro names
  induction names with
  | nil =>
    intro h ku kvs g hu
    exact C28_lookup_partial L g hu name
  | cons n ns ih =>
    intro h ku kvs g hu
    obtain ⟨u, -⟩ := valueByName_obj E g n
    have hm := members_index E ku kvs n
    obtain ⟨G', g2⟩ := ih _ _ _ u.good (by unfold UniqueNames; rw [hm]; exact hu)
    have e : firstNamed E (.obj (indexByName E ku kvs n).2.1 (indexByName E ku kvs n).2.2) name = firstNamed E (.obj ku kvs) name := by
      unfold firstNamed; rw [hm]
    rw [e] at g2
    exact ⟨G', g2⟩

/-- With repeated names a miss changes what a later lookup finds: in `{"\/":1,"/":2}` the lookup of `/` gives 2, but
after a lookup of the absent name `x` it gives 1. -/
theorem C41_unstable :
    let kvs := [([92, 47], Val.int 0 1), ([47], Val.int 0 2)]
    objOld envEx false kvs [47] = some (.int 0 2) ∧
    objOld envEx (indexByName envEx false kvs [120]).2.1 (indexByName envEx false kvs [120]).2.2 [47] = some (.int 0 1) := by decide

example : ∃ v G G', Good (valueByName envEx exHeap 5 [97]).2 (valueByName envEx exHeap 5 [97]).1 v G ∧
    Good (valueByName envEx (lookups envEx 5 exHeap [[47], [120]]) 5 [97]).2
      (valueByName envEx (lookups envEx 5 exHeap [[47], [120]]) 5 [97]).1 v G' :=
  C41_stable_partial (envEx_keyLaws false) exGood (by unfold UniqueNames; decide) [[47], [120]] [97]

end Dxs.Heap
