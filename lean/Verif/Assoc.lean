import Verif.Val

/-!
# Insertion-ordered maps (specification)

Association lists with an arbitrary key comparison `m`; a new key goes to the end, an existing one keeps its
place and its spelling.
-/

namespace Dxs.Assoc

variable {α β : Type} (m : Bytes → Bytes → Bool)

/-- Write `v` under `k`. -/
def put : List (Bytes × α) → Bytes → α → List (Bytes × α)
  | [], k, v => [(k, v)]
  | (k', v') :: r, k, v => if m k' k then (k', v) :: r else (k', v') :: put r k v

/-- Read `k`: the first entry whose key matches. -/
def get : List (Bytes × α) → Bytes → Option α
  | [], _ => none
  | (k', v') :: r, k => if m k' k then some v' else get r k

/-- Remove the first entry whose key matches. -/
def del : List (Bytes × α) → Bytes → List (Bytes × α)
  | [], _ => []
  | (k', v') :: r, k => if m k' k then r else (k', v') :: del r k

/-- Write all entries of `kvs`, in order, after `acc`. -/
def putAll (acc kvs : List (Bytes × α)) : List (Bytes × α) := kvs.foldl (fun a kv => put m a kv.1 kv.2) acc

/-- The map described by a list with repeated keys: first position, last value. -/
def lastWins (kvs : List (Bytes × α)) : List (Bytes × α) := putAll m [] kvs

/-- No key matches an earlier one. -/
def Distinct (kvs : List (Bytes × α)) : Prop := (kvs.map Prod.fst).Pairwise (fun a b => m a b = false)

variable {m}

theorem put_new {kvs : List (Bytes × α)} {k : Bytes} {v : α} (h : ∀ kv ∈ kvs, m kv.1 k = false) :
    put m kvs k v = kvs ++ [(k, v)] := by
  induction kvs with
  | nil => rfl
  | cons x r ih =>
    obtain ⟨k', v'⟩ := x
    rw [put, if_neg (by simp [h (k', v')]), ih (fun kv hk => h kv (by simp [hk]))]
    rfl

theorem put_findIdx (kvs : List (Bytes × α)) (k : Bytes) (v : α) :
    put m kvs k v = match kvs.findIdx? (fun kv => m kv.1 k) with
      | some i => kvs.modify i (fun kv => (kv.1, v))
      | none => kvs ++ [(k, v)] := by
  induction kvs with
  | nil => rfl
  | cons x r ih =>
    obtain ⟨k', v'⟩ := x
    rw [put, List.findIdx?_cons]
    by_cases h : m k' k = true
    · simp [h]
    · simp only [h, ih]
      cases r.findIdx? (fun kv => m kv.1 k) <;> simp

theorem putAll_distinct {acc kvs : List (Bytes × α)} (h : Distinct m kvs)
    (h2 : ∀ a ∈ acc, ∀ kv ∈ kvs, m a.1 kv.1 = false) : putAll m acc kvs = acc ++ kvs := by
  induction kvs generalizing acc with
  | nil => simp [putAll]
  | cons x r ih =>
    obtain ⟨k, v⟩ := x
    simp only [Distinct, List.map_cons, List.pairwise_cons] at h
    simp only [putAll, List.foldl_cons] at ih ⊢
    rw [put_new (fun a ha => h2 a ha (k, v) (by simp)), ih h.2]
    · simp
    · intro a ha kv hkv
      rcases List.mem_append.1 ha with ha | ha
      · exact h2 a ha kv (by simp [hkv])
      · simp at ha; subst ha; exact h.1 kv.1 (List.mem_map_of_mem hkv)

theorem lastWins_distinct {kvs : List (Bytes × α)} (h : Distinct m kvs) : lastWins m kvs = kvs := by
  have := putAll_distinct (acc := []) h (by simp)
  simpa [lastWins] using this

theorem get_put_same (hm : ∀ k, m k k = true) (kvs : List (Bytes × α)) (k : Bytes) (v : α) :
    get m (put m kvs k v) k = some v := by
  induction kvs with
  | nil => simp [put, get, hm]
  | cons x r ih =>
    obtain ⟨k', v'⟩ := x
    rw [put]
    split
    · rename_i h; simp [get, h]
    · rename_i h; simp [get, h, ih]

/-- Writing `k` leaves every other name alone, provided no entry answers to both names. -/
theorem get_put_other (kvs : List (Bytes × α)) (k k2 : Bytes) (v : α) (hne : m k k2 = false)
    (h : ∀ kv ∈ kvs, m kv.1 k = true → m kv.1 k2 = false) : get m (put m kvs k v) k2 = get m kvs k2 := by
  induction kvs with
  | nil => simp [put, get, hne]
  | cons x r ih =>
    obtain ⟨k', v'⟩ := x
    rw [put]
    split
    · rename_i hk
      simp [get, h (k', v') (by simp) hk]
    · simp only [get]
      rw [ih (fun kv hk => h kv (by simp [hk]))]

theorem put_keys (kvs : List (Bytes × α)) (k : Bytes) (v : α) :
    (put m kvs k v).map Prod.fst = if (kvs.any fun kv => m kv.1 k) then kvs.map Prod.fst else kvs.map Prod.fst ++ [k] := by
  induction kvs with
  | nil => simp [put]
  | cons x r ih =>
    obtain ⟨k', v'⟩ := x
    rw [put]
    split
    · rename_i h; simp [h]
    · rename_i h
      simp only [List.map_cons, ih, List.any_cons, h, Bool.false_or]
      split <;> simp

theorem mem_put {kvs : List (Bytes × α)} {k : Bytes} {v : α} {a : Bytes × α} (h : a ∈ put m kvs k v) :
    (∃ a' ∈ kvs, a'.1 = a.1) ∨ a.1 = k := by
  have : a.1 ∈ (put m kvs k v).map Prod.fst := List.mem_map_of_mem h
  rw [put_keys] at this
  split at this
  · obtain ⟨x, hx, e⟩ := List.mem_map.1 this
    exact Or.inl ⟨x, hx, e⟩
  · rcases List.mem_append.1 this with h | h
    · obtain ⟨x, hx, e⟩ := List.mem_map.1 h
      exact Or.inl ⟨x, hx, e⟩
    · right; simpa using h

theorem put_distinct {kvs : List (Bytes × α)} (h : Distinct m kvs) (k : Bytes) (v : α) :
    Distinct m (put m kvs k v) := by
  unfold Distinct
  rw [put_keys]
  split
  · exact h
  · rename_i hn
    rw [List.pairwise_append]
    refine ⟨h, by simp, ?_⟩
    intro a ha b hb
    simp at hb; subst hb
    simp at hn
    obtain ⟨x, hx, rfl⟩ := List.mem_map.1 ha
    have := hn x.1 x.2 hx
    simpa using this

theorem del_sublist (kvs : List (Bytes × α)) (k : Bytes) : (del m kvs k).Sublist kvs := by
  induction kvs with
  | nil => exact List.Sublist.slnil
  | cons x r ih =>
    obtain ⟨k', v'⟩ := x
    rw [del]
    split
    · exact List.sublist_cons_self _ _
    · exact ih.cons_cons _

theorem del_distinct {kvs : List (Bytes × α)} (h : Distinct m kvs) (k : Bytes) : Distinct m (del m kvs k) :=
  List.Pairwise.sublist ((del_sublist kvs k).map _) h

theorem del_findIdx (kvs : List (Bytes × α)) (k : Bytes) :
    del m kvs k = match kvs.findIdx? (fun kv => m kv.1 k) with
      | some i => kvs.eraseIdx i
      | none => kvs := by
  induction kvs with
  | nil => rfl
  | cons x r ih =>
    obtain ⟨k', v'⟩ := x
    rw [del, List.findIdx?_cons]
    by_cases h : m k' k = true
    · simp [h]
    · simp only [h, ih]
      cases r.findIdx? (fun kv => m kv.1 k) <;> simp

theorem get_findIdx (kvs : List (Bytes × α)) (k : Bytes) :
    get m kvs k = match kvs.findIdx? (fun kv => m kv.1 k) with
      | some i => kvs[i]?.map Prod.snd
      | none => none := by
  induction kvs with
  | nil => rfl
  | cons x r ih =>
    obtain ⟨k', v'⟩ := x
    rw [get, List.findIdx?_cons]
    by_cases h : m k' k = true
    · simp [h]
    · simp only [h, ih]
      cases r.findIdx? (fun kv => m kv.1 k) <;> simp

end Dxs.Assoc
