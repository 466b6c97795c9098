import Verif.Heap.Ops
import Verif.Assoc
import Verif.EnvEx

/-!
# Names of members

`members` is what an object means to its user: its members in order, under their unescaped names.
-/

namespace Dxs.Heap

/-- The members of an object under their unescaped names. -/
def members (E : Env) : Val → List (Bytes × Val)
  | .obj true kvs => kvs
  | .obj false kvs => kvs.map (fun kv => (E.unesc kv.1, kv.2))
  | _ => []

theorem members_obj (E : Env) (ku : Bool) (kvs : List (Bytes × Val)) : members E (.obj ku kvs) = unescKeys E ku kvs := by
  cases ku <;> simp [members, unescKeys]

/-- What the external functions are assumed to satisfy: text without backslash is not changed by unescaping, and case
folding is an equivalence that does not touch backslashes. -/
structure KeyLaws (E : Env) : Prop where
  plain : ∀ k : Bytes, 92 ∉ k → E.unesc k = k
  symm : ∀ a b, E.equalFold a b = true → E.equalFold b a = true
  trans : ∀ a b c, E.equalFold a b = true → E.equalFold b c = true → E.equalFold a c = true
  slash : ∀ a b, E.equalFold a b = true → (92 ∈ a ↔ 92 ∈ b)

theorem KeyLaws.match_symm {E : Env} (L : KeyLaws E) {a b : Bytes} (h : E.keyMatch a b = true) : E.keyMatch b a = true := by
  simp only [Env.keyMatch, Bool.or_eq_true, Bool.and_eq_true, beq_iff_eq] at h ⊢
  rcases h with ⟨h1, h2⟩ | h
  · exact Or.inl ⟨h1, L.symm _ _ h2⟩
  · exact Or.inr h.symm

theorem KeyLaws.match_trans {E : Env} (L : KeyLaws E) {a b c : Bytes} (h : E.keyMatch a b = true) (h' : E.keyMatch b c = true) :
    E.keyMatch a c = true := by
  simp only [Env.keyMatch, Bool.or_eq_true, Bool.and_eq_true, beq_iff_eq] at h h' ⊢
  rcases h with ⟨h1, h2⟩ | rfl
  · rcases h' with ⟨_, h4⟩ | rfl
    · exact Or.inl ⟨h1, L.trans _ _ _ h2 h4⟩
    · exact Or.inl ⟨h1, h2⟩
  · exact h'

theorem KeyLaws.match_slash {E : Env} (L : KeyLaws E) {a b : Bytes} (h : E.keyMatch a b = true) : 92 ∈ a ↔ 92 ∈ b := by
  simp only [Env.keyMatch, Bool.or_eq_true, Bool.and_eq_true, beq_iff_eq] at h
  rcases h with ⟨_, h2⟩ | rfl
  · exact L.slash _ _ h2
  · exact Iff.rfl

/-- The members that answer to `name` are found by position in `members`. -/
theorem indexByName_members {E : Env} (L : KeyLaws E) (ku : Bool) (kvs : List (Bytes × Val))
    (hd : Assoc.Distinct E.keyMatch (members E (.obj ku kvs))) (name : Bytes) :
    (indexByName E ku kvs name).1 = (members E (.obj ku kvs)).findIdx? (fun kv => E.keyMatch kv.1 name) := by
  rw [members_obj] at hd ⊢
  unfold indexByName
  split
  · rename_i hc
    split
    · rename_i i hi
      simp only [Bool.and_eq_true, Bool.not_eq_true', List.contains_eq_mem, decide_eq_false_iff_not] at hc
      obtain ⟨rfl, hn⟩ := hc
      obtain ⟨hlt, hm, hmin⟩ := List.findIdx?_eq_some_iff_getElem.1 hi
      symm
      simp only [unescKeys, Bool.false_eq_true, if_false] at hd ⊢
      have hk : E.unesc (kvs[i]).1 = (kvs[i]).1 := L.plain _ (fun h => hn ((L.match_slash hm).1 h))
      rw [List.findIdx?_eq_some_iff_getElem]
      refine ⟨by simpa using hlt, by simpa [hk] using hm, ?_⟩
      intro j hj hmj
      simp only [List.getElem_map] at hmj
      have hd' := List.pairwise_iff_getElem.1 hd j i (by simp; omega) (by simpa using hlt) hj
      simp only [List.getElem_map] at hd'
      rw [hk] at hd'
      rw [L.match_trans hmj (L.match_symm hm)] at hd'
      cases hd'
    · rfl
  · rfl

theorem members_index (E : Env) (ku : Bool) (kvs : List (Bytes × Val)) (name : Bytes) :
    members E (.obj (indexByName E ku kvs name).2.1 (indexByName E ku kvs name).2.2) = members E (.obj ku kvs) := by
  rw [members_obj, members_obj]
  unfold indexByName
  split
  · split <;> simp [unescKeys]
  · simp [unescKeys]

theorem members_modify (E : Env) (ku : Bool) (kvs : List (Bytes × Val)) (i : Nat) (w : Val) :
    members E (.obj ku (kvs.modify i (fun kv => (kv.1, w)))) = (members E (.obj ku kvs)).modify i (fun kv => (kv.1, w)) := by
  cases ku
  · simp only [members]
    apply List.ext_getElem?
    intro j
    simp only [List.getElem?_map, List.getElem?_modify]
    by_cases hij : i = j
    · subst hij; simp; cases kvs[i]? <;> simp
    · simp [hij]
  · rfl

theorem members_erase (E : Env) (ku : Bool) (kvs : List (Bytes × Val)) (i : Nat) :
    members E (.obj ku (kvs.eraseIdx i)) = (members E (.obj ku kvs)).eraseIdx i := by
  cases ku
  · simp only [members]; exact eraseIdx_map _ _ _
  · rfl

theorem indexByName_none (E : Env) (ku : Bool) (kvs : List (Bytes × Val)) (name : Bytes) (h : (indexByName E ku kvs name).1 = none) :
    (indexByName E ku kvs name).2.1 = true := by
  unfold indexByName at h ⊢
  split
  · split
    · rename_i hc _ i hi; rw [if_pos hc, hi] at h; cases h
    · rfl
  · rfl

/-- Writing a member. -/
theorem members_objPut {E : Env} (L : KeyLaws E) (ku : Bool) (kvs : List (Bytes × Val))
    (hd : Assoc.Distinct E.keyMatch (members E (.obj ku kvs))) (name : Bytes) (w : Val) :
    members E (objPut E ku kvs name w) = Assoc.put E.keyMatch (members E (.obj ku kvs)) name w := by
  rw [Assoc.put_findIdx, ← indexByName_members L ku kvs hd name]
  unfold objPut setKeyValueObj
  have hm := members_index E ku kvs name
  have hno := indexByName_none E ku kvs name
  rcases hi : indexByName E ku kvs name with ⟨i, ku', kvs'⟩
  rw [hi] at hm hno
  simp only at hm hno
  cases i with
  | some i => simp only; rw [members_modify, hm]
  | none =>
    have := hno rfl
    subst this
    simp only [← hm]
    rfl

/-- Removing a member. -/
theorem members_objDel {E : Env} (L : KeyLaws E) (ku : Bool) (kvs : List (Bytes × Val))
    (hd : Assoc.Distinct E.keyMatch (members E (.obj ku kvs))) (name : Bytes) :
    members E (objDel E ku kvs name) = Assoc.del E.keyMatch (members E (.obj ku kvs)) name := by
  rw [Assoc.del_findIdx, ← indexByName_members L ku kvs hd name]
  unfold objDel
  have hm := members_index E ku kvs name
  rcases hi : indexByName E ku kvs name with ⟨i, ku', kvs'⟩
  rw [hi] at hm
  simp only at hm
  cases i with
  | some i => simp only; rw [members_erase, hm]
  | none => simp only; rw [hm]

theorem members_snd (E : Env) (ku : Bool) (kvs : List (Bytes × Val)) : (members E (.obj ku kvs)).map Prod.snd = kvs.map Prod.snd := by
  cases ku <;> simp [members]

/-- Reading a member. -/
theorem objOld_members {E : Env} (L : KeyLaws E) (ku : Bool) (kvs : List (Bytes × Val))
    (hd : Assoc.Distinct E.keyMatch (members E (.obj ku kvs))) (name : Bytes) :
    objOld E ku kvs name = Assoc.get E.keyMatch (members E (.obj ku kvs)) name := by
  rw [Assoc.get_findIdx, ← indexByName_members L ku kvs hd name]
  unfold objOld
  cases (indexByName E ku kvs name).1 with
  | none => rfl
  | some i =>
    simp only [Option.bind_some, ← List.getElem?_map, members_snd]

/-- `ValueByName` on an object: the pointer found represents the member found; the object keeps its meaning. -/
theorem valueByName_obj (E : Env) {h : Heap} {p : Ptr} {ku : Bool} {kvs : List (Bytes × Val)} {F : List Ptr}
    (g : Good h (some p) (.obj ku kvs) F) (name : Bytes) :
    Upd h F (valueByName E h p name).2 (some p) (.obj (indexByName E ku kvs name).2.1 (indexByName E ku kvs name).2.2) F ∧
    ∃ G, Good (valueByName E h p name).2 (valueByName E h p name).1 ((objOld E ku kvs name).getD .nil) G ∧ ∀ q ∈ G, q ∈ F := by
  have hdt := rep_dt g.rep
  obtain ⟨hidx, u1, -⟩ := objIndex_upd E g name
  unfold valueByName objGet objOld
  rw [show (h.mem p).dt = .object from hdt]
  have hlt := @indexByName_lt _ E ku kvs name
  have hsnd := indexByName_snd E ku kvs name
  rcases hi : indexByName E ku kvs name with ⟨i, ku', kvs'⟩
  rw [hi] at hidx u1 hlt hsnd
  simp only at hidx u1 hlt hsnd
  rcases ho : objIndex E h p name with ⟨i', h1⟩
  rw [ho] at hidx u1
  simp only at hidx u1
  subst hidx
  simp only
  refine ⟨u1, ?_⟩
  cases i' with
  | none => exact ⟨[], ⟨u1.frame.inv, ⟨rfl, rfl⟩, by simp, by simp⟩, by simp⟩
  | some i =>
    have hilt := hlt rfl
    obtain ⟨x, hx⟩ : ∃ x, (kvs.map Prod.snd)[i]? = some x := ⟨_, List.getElem?_eq_getElem (by simpa using hilt)⟩
    obtain ⟨b, Fi, hb, gb, hFi, -⟩ := u1.good.kid (i := i) (x := x) (by simp only [Val.kids, hsnd, hx])
    rw [kids_obj (rep_dt u1.good.rep)] at hb
    have hget : ((h1.mem p).kvs[i]?).bind Prod.snd = b := by
      rw [List.getElem?_map] at hb
      cases hkv : (h1.mem p).kvs[i]? with
      | none => rw [hkv] at hb; simp at hb
      | some kv => rw [hkv] at hb; simp at hb; simp [hb]
    simp only [Option.bind_some, hx, Option.getD_some, hget]
    exact ⟨Fi, gb, hFi⟩

/-! ## The example environment -/

theorem exUnesc_plain : ∀ k : Bytes, 92 ∉ k → exUnesc k = k := by
  intro k
  induction k with
  | nil => intro _; rfl
  | cons c r ih =>
    intro h
    simp only [List.mem_cons, not_or] at h
    rw [exUnesc, ih h.2]
    · rintro r' rfl; exact absurd rfl h.1
    · rintro c' r' rfl; exact absurd rfl h.1

theorem lower_slash (c : UInt8) : lower c = 92 ↔ c = 92 := by
  unfold lower
  split
  · rename_i h
    constructor
    · intro e
      have h1 : (c + 32).toNat = 92 := by rw [e]; rfl
      simp [UInt8.toNat_add] at h1
      omega
    · rintro rfl; exact absurd h (by decide)
  · exact Iff.rfl

theorem envEx_keyLaws (b : Bool) : KeyLaws { envEx with ignoreCase := b } where
  plain := exUnesc_plain
  symm a b h := by simp only [envEx, beq_iff_eq] at h ⊢; exact h.symm
  trans a b c h h' := by simp only [envEx, beq_iff_eq] at h h' ⊢; exact h.trans h'
  slash a b h := by
    simp only [envEx, beq_iff_eq] at h
    have key : ∀ a : Bytes, 92 ∈ a ↔ (92 : UInt8) ∈ a.map lower := by
      intro a
      simp only [List.mem_map]
      constructor
      · intro h; exact ⟨92, h, by decide⟩
      · rintro ⟨x, hx, e⟩; rw [(lower_slash x).1 e] at hx; exact hx
    rw [key a, key b, h]

end Dxs.Heap
