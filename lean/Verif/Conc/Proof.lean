import Verif.Conc.Model
import Verif.Heap.Keys

/-!
# Invariants of concurrent lookups
-/

namespace Dxs.Conc
open Dxs.Heap

/-- What is assumed of the object before the first step. `u` is the list of members with unescaped names. -/
structure Mild (E : Env) (kvs u : List (Bytes × α)) : Prop where
  /-- The same members. -/
  len : u.length = kvs.length
  /-- Names without `\` stay. -/
  plain : ∀ i (h : i < kvs.length) (h' : i < u.length), 92 ∉ (kvs[i]).1 → u[i] = kvs[i]
  /-- Unescaping, of the name or of the unescaped name, gives the unescaped name. -/
  once : ∀ i (h : i < kvs.length) (h' : i < u.length), E.unesc (kvs[i]).1 = (u[i]).1 ∧ E.unesc (u[i]).1 = (u[i]).1 ∧ (kvs[i]).2 = (u[i]).2
  /-- Either no two names are the same, or there is nothing to unescape. -/
  dist : Assoc.Distinct E.keyMatch u ∨ u = kvs

/-- The object during the lookups. -/
structure OInv (ku : Bool) (kvs u : List (Bytes × α)) (o : Obj α) : Prop where
  len : o.kvs.length = u.length
  each : ∀ i (h : i < o.kvs.length) (h' : i < u.length) (h'' : i < kvs.length), o.kvs[i] = kvs[i] ∨ o.kvs[i] = u[i]
  flag : o.ku = true → o.kvs = u
  /-- If the names were unescaped from the start, nothing is written. -/
  same : ku = true → o.ku = true

/-- The first `i` members are unescaped. -/
def Done (u : List (Bytes × α)) (o : Obj α) (i : Nat) : Prop := ∀ j < i, o.kvs[j]? = u[j]?

/-- A goroutine during the lookups. -/
def TInv (E : Env) (ku : Bool) (kvs u : List (Bytes × α)) (o : Obj α) (name : Bytes) : Pc → Prop
  | .start => True
  | .scan1 i => 92 ∉ name ∧ (u = kvs → ∀ j < i, ∀ kv, u[j]? = some kv → E.keyMatch kv.1 name = false)
  | .un => True
  | .unRead i => ku = false ∧ i ≤ u.length ∧ Done u o i
  | .unWrite i s => ku = false ∧ Done u o i ∧ ∃ h : i < u.length, E.unesc s = (u[i]).1
  | .scan2 i => o.kvs = u ∧ ∀ j < i, ∀ kv, u[j]? = some kv → E.keyMatch kv.1 name = false
  | .done r => r = findKey E u name

/-- Steps only unescape. -/
def Mono (u : List (Bytes × α)) (o o' : Obj α) : Prop := o'.kvs.length = o.kvs.length ∧ ∀ j : Nat, o.kvs[j]? = u[j]? → o'.kvs[j]? = u[j]?

theorem Mono.refl (u : List (Bytes × α)) (o : Obj α) : Mono u o o := ⟨rfl, fun _ h => h⟩

theorem TInv.mono {E : Env} {ku : Bool} {kvs u : List (Bytes × α)} {o o' : Obj α} (h : Mono u o o') {name : Bytes} {pc : Pc}
    (ht : TInv E ku kvs u o name pc) : TInv E ku kvs u o' name pc := by
  cases pc with
  | unRead i => exact ⟨ht.1, ht.2.1, fun j hj => h.2 j (ht.2.2 j hj)⟩
  | unWrite i s => exact ⟨ht.1, fun j hj => h.2 j (ht.2.1 j hj), ht.2.2⟩
  | scan2 i =>
    refine ⟨?_, ht.2⟩
    apply List.ext_getElem?
    intro j
    exact h.2 j (by rw [ht.1])
  | _ => exact ht

theorem findKey_first {E : Env} {u : List (Bytes × α)} {name : Bytes} {i : Nat} {kv : Bytes × α} (h : u[i]? = some kv) (hm : E.keyMatch kv.1 name = true)
    (hb : ∀ j < i, ∀ kv, u[j]? = some kv → E.keyMatch kv.1 name = false) : findKey E u name = some i := by
  obtain ⟨hi, rfl⟩ := List.getElem?_eq_some_iff.1 h
  unfold findKey
  rw [List.findIdx?_eq_some_iff_getElem]
  refine ⟨hi, hm, fun j hj => ?_⟩
  rw [hb j hj u[j] (List.getElem?_eq_getElem (by omega))]
  simp

theorem findKey_none {E : Env} {u : List (Bytes × α)} {name : Bytes} {i : Nat} (h : u[i]? = none)
    (hb : ∀ j < i, ∀ kv, u[j]? = some kv → E.keyMatch kv.1 name = false) : findKey E u name = none := by
  unfold findKey
  rw [List.findIdx?_eq_none_iff]
  intro kv hkv
  obtain ⟨j, hj, rfl⟩ := List.getElem_of_mem hkv
  have := List.getElem?_eq_none_iff.1 h
  exact hb j (by omega) _ (List.getElem?_eq_getElem hj)

theorem findKey_distinct {E : Env} (L : KeyLaws E) {u : List (Bytes × α)} (hd : Assoc.Distinct E.keyMatch u) {name : Bytes} {i : Nat} {kv : Bytes × α}
    (h : u[i]? = some kv) (hm : E.keyMatch kv.1 name = true) : findKey E u name = some i := by
  apply findKey_first h hm
  intro j hj kv' h'
  cases hk : E.keyMatch kv'.1 name with
  | false => rfl
  | true =>
    obtain ⟨hi, rfl⟩ := List.getElem?_eq_some_iff.1 h
    obtain ⟨hj', rfl⟩ := List.getElem?_eq_some_iff.1 h'
    have := List.pairwise_iff_getElem.1 hd j i (by simpa using hj') (by simpa using hi) hj
    simp only [List.getElem_map] at this
    rw [L.match_trans hk (L.match_symm hm)] at this
    exact this

/-- A step of one goroutine keeps its invariant and that of the object, and is a `Mono` step for the others. -/
theorem step_inv {E : Env} (L : KeyLaws E) {ku : Bool} {kvs u : List (Bytes × α)} (hM : ku = false → Mild E kvs u) (hu : ku = true → u = kvs)
    {o : Obj α} (ho : OInv ku kvs u o) {name : Bytes} {pc : Pc} (ht : TInv E ku kvs u o name pc) :
    OInv ku kvs u (step E name o pc).1 ∧ TInv E ku kvs u (step E name o pc).1 name (step E name o pc).2 ∧ Mono u o (step E name o pc).1 := by
  have hlen : u.length = kvs.length := by
    cases ku with
    | true => rw [hu rfl]
    | false => exact (hM rfl).len
  cases pc with
  | start =>
    refine ⟨ho, ?_, Mono.refl _ _⟩
    simp only [step]
    split
    · rename_i h
      simp only [Bool.and_eq_true, Bool.not_eq_true', List.contains_eq_mem, decide_eq_false_iff_not] at h
      exact ⟨h.2, fun _ j hj => absurd hj (Nat.not_lt_zero j)⟩
    · trivial
  | scan1 i =>
    obtain ⟨hn, hb⟩ := ht
    simp only [step]
    split
    · exact ⟨ho, trivial, Mono.refl _ _⟩
    · rename_i kv hkv
      refine ⟨ho, ?_, Mono.refl _ _⟩
      obtain ⟨hi, rfl⟩ := List.getElem?_eq_some_iff.1 hkv
      have hi' : i < u.length := by rw [← ho.len]; exact hi
      have hi'' : i < kvs.length := by omega
      have e := ho.each i hi hi' hi''
      dsimp only
      split
      · rename_i hm
        have hui : E.keyMatch (u[i]).1 name = true := by
          rcases e with e | e
          · rw [e] at hm
            have hp : 92 ∉ (kvs[i]).1 := fun h => hn ((L.match_slash hm).1 h)
            cases ku with
            | true =>
              have := hu rfl
              subst this
              exact hm
            | false =>
              rw [(hM rfl).plain i hi'' hi' hp]
              exact hm
          · rw [e] at hm; exact hm
        by_cases huk : u = kvs
        · exact (findKey_first (List.getElem?_eq_getElem hi') hui (hb huk)).symm
        · cases ku with
          | true => exact absurd (hu rfl) huk
          | false =>
            rcases (hM rfl).dist with hd | hd
            · exact (findKey_distinct L hd (List.getElem?_eq_getElem hi') hui).symm
            · exact absurd hd huk
      · rename_i hm
        refine ⟨hn, fun huk j hj kv' h' => ?_⟩
        by_cases hji : j < i
        · exact hb huk j hji kv' h'
        · have : j = i := by omega
          subst this
          have he : o.kvs[j] = u[j] := by
            subst huk
            rcases e with e | e <;> exact e
          rw [List.getElem?_eq_getElem hi'] at h'
          cases h'
          rw [← he]
          simpa using hm
  | un =>
    refine ⟨ho, ?_, Mono.refl _ _⟩
    simp only [step]
    split
    · rename_i h
      exact ⟨ho.flag h, fun j hj => absurd hj (Nat.not_lt_zero j)⟩
    · rename_i h
      refine ⟨?_, Nat.zero_le _, fun j hj => absurd hj (Nat.not_lt_zero j)⟩
      cases ku with
      | false => rfl
      | true => exact absurd (ho.same rfl) h
  | unRead i =>
    obtain ⟨hk, hi, hd⟩ := ht
    simp only [step]
    split
    · rename_i h
      have hge := List.getElem?_eq_none_iff.1 h
      have hall : o.kvs = u := by
        apply List.ext_getElem?
        intro j
        by_cases hj : j < i
        · exact hd j hj
        · rw [List.getElem?_eq_none (by omega), List.getElem?_eq_none (by rw [← ho.len]; omega)]
      exact ⟨⟨ho.len, ho.each, fun _ => hall, fun _ => rfl⟩, ⟨hall, fun j hj => absurd hj (Nat.not_lt_zero j)⟩, ⟨rfl, fun _ h => h⟩⟩
    · rename_i kv hkv
      refine ⟨ho, ⟨hk, hd, ?_⟩, Mono.refl _ _⟩
      obtain ⟨hi, rfl⟩ := List.getElem?_eq_some_iff.1 hkv
      have hi' : i < u.length := by rw [← ho.len]; exact hi
      have hi'' : i < kvs.length := by omega
      refine ⟨hi', ?_⟩
      rcases ho.each i hi hi' hi'' with e | e
      · rw [e]; exact ((hM hk).once i hi'' hi').1
      · rw [e]; exact ((hM hk).once i hi'' hi').2.1
  | unWrite i s =>
    obtain ⟨hk, hd, hi', hs⟩ := ht
    simp only [step]
    have hi : i < o.kvs.length := by rw [ho.len]; exact hi'
    have hi'' : i < kvs.length := by omega
    have hnew : (o.kvs.modify i (fun kv => (E.unesc s, kv.2)))[i]? = u[i]? := by
      rw [List.getElem?_modify_eq, List.getElem?_eq_getElem hi, List.getElem?_eq_getElem hi', hs]
      simp only [Option.map_eq_map, Option.map_some, Option.some.injEq]
      rcases ho.each i hi hi' hi'' with e | e
      · rw [e, ((hM hk).once i hi'' hi').2.2]
      · rw [e]
    have hm : Mono u o { o with kvs := o.kvs.modify i (fun kv => (E.unesc s, kv.2)) } := by
      refine ⟨List.length_modify _ _ _, fun j hj => ?_⟩
      by_cases h : i = j
      · subst h; exact hnew
      · rw [List.getElem?_modify]; simp only [if_neg h]
        simpa using hj
    refine ⟨⟨?_, ?_, ?_, ?_⟩, ⟨hk, hi', ?_⟩, hm⟩
    · simp only [List.length_modify]; exact ho.len
    · intro j h1 h2 h3
      by_cases h : i = j
      · subst h
        right
        dsimp only at h1 ⊢
        rw [List.getElem?_eq_getElem h1, List.getElem?_eq_getElem h2] at hnew
        exact Option.some.inj hnew
      · dsimp only
        rw [List.getElem_modify, if_neg h]
        exact ho.each j (by simpa using h1) h2 h3
    · intro hf
      apply List.ext_getElem?
      intro j
      exact hm.2 j (by rw [ho.flag hf])
    · exact ho.same
    · intro j hj
      by_cases h : j = i
      · subst h; exact hnew
      · exact hm.2 j (hd j (by omega))
  | scan2 i =>
    obtain ⟨he, hb⟩ := ht
    simp only [step]
    split
    · rename_i h
      rw [he] at h
      exact ⟨ho, (findKey_none h hb).symm, Mono.refl _ _⟩
    · rename_i kv hkv
      rw [he] at hkv
      refine ⟨ho, ?_, Mono.refl _ _⟩
      dsimp only
      split
      · rename_i hm
        exact (findKey_first hkv hm hb).symm
      · rename_i hm
        refine ⟨he, fun j hj kv' h' => ?_⟩
        by_cases hji : j < i
        · exact hb j hji kv' h'
        · have : j = i := by omega
          subst this
          rw [hkv] at h'
          cases h'
          simpa using hm
  | done r => exact ⟨ho, ht, Mono.refl _ _⟩

/-- All goroutines. -/
def SInv (E : Env) (ku : Bool) (kvs u : List (Bytes × α)) (s : Sys α) : Prop :=
  OInv ku kvs u s.obj ∧ ∀ (j : Nat) (t : Bytes × Pc), s.ts[j]? = some t → TInv E ku kvs u s.obj t.1 t.2

theorem sys_step_inv {E : Env} (L : KeyLaws E) {ku : Bool} {kvs u : List (Bytes × α)} (hM : ku = false → Mild E kvs u) (hu : ku = true → u = kvs)
    {s : Sys α} (h : SInv E ku kvs u s) (j : Nat) : SInv E ku kvs u (s.step E j) := by
  unfold Sys.step
  split
  · exact h
  · rename_i name pc ht
    obtain ⟨h1, h2, h3⟩ := step_inv L hM hu h.1 (h.2 j _ ht)
    refine ⟨h1, fun k t hk => ?_⟩
    dsimp only at hk ⊢
    by_cases hkj : j = k
    · subst hkj
      obtain ⟨hlt, _⟩ := List.getElem?_eq_some_iff.1 ht
      rw [List.getElem?_set_self hlt] at hk
      cases hk
      exact h2
    · rw [List.getElem?_set_ne hkj] at hk
      exact (h.2 k t hk).mono h3

theorem sys_run_inv {E : Env} (L : KeyLaws E) {ku : Bool} {kvs u : List (Bytes × α)} (hM : ku = false → Mild E kvs u) (hu : ku = true → u = kvs)
    (sched : List Nat) : ∀ {s : Sys α}, SInv E ku kvs u s → SInv E ku kvs u (s.run E sched) := by
  induction sched with
  | nil => exact fun h => h
  | cons j r ih => exact fun h => ih (sys_step_inv L hM hu h j)

theorem sys_init_inv {E : Env} {ku : Bool} {kvs u : List (Bytes × α)} (hl : u.length = kvs.length) (hu : ku = true → u = kvs) (names : List Bytes) :
    SInv E ku kvs u (Sys.init ku kvs names) := by
  refine ⟨⟨hl.symm, fun i _ _ _ => Or.inl rfl, fun h => (hu h).symm, fun h => h⟩, fun j t h => ?_⟩
  simp only [Sys.init, List.getElem?_map, Option.map_eq_some_iff] at h
  obtain ⟨n, _, rfl⟩ := h
  trivial

/-! ## Every goroutine ends -/

/-- A bound on the steps that a goroutine still does, with `n` members. -/
def rank (n : Nat) : Pc → Nat
  | .done _ => 0
  | .scan2 i => (n - i) + 1
  | .unWrite i _ => 2 * (n - i) + n + 1
  | .unRead i => 2 * (n - i) + n + 2
  | .un => 3 * n + 3
  | .scan1 i => (n - i) + 3 * n + 4
  | .start => 4 * n + 5

theorem step_length (E : Env) (name : Bytes) (o : Obj α) (pc : Pc) : (step E name o pc).1.kvs.length = o.kvs.length := by
  cases pc <;> simp only [step] <;> (try split) <;> simp

theorem step_rank (E : Env) (name : Bytes) (o : Obj α) (pc : Pc) (hw : ∀ i s, pc = .unWrite i s → i < o.kvs.length) (h : rank o.kvs.length pc ≠ 0) :
    rank o.kvs.length (step E name o pc).2 < rank o.kvs.length pc := by
  cases pc with
  | done r => exact absurd rfl h
  | start => simp only [step]; split <;> simp only [rank] <;> omega
  | un => simp only [step]; split <;> simp only [rank] <;> omega
  | unWrite i s =>
    have := hw i s rfl
    simp only [step, rank]; omega
  | scan1 i =>
    simp only [step]
    split
    · simp only [rank]; omega
    · rename_i hk
      have := (List.getElem?_eq_some_iff.1 hk).1
      dsimp only
      split <;> simp only [rank] <;> omega
  | scan2 i =>
    simp only [step]
    split
    · simp only [rank]; omega
    · rename_i hk
      have := (List.getElem?_eq_some_iff.1 hk).1
      dsimp only
      split <;> simp only [rank] <;> omega
  | unRead i =>
    simp only [step]
    split
    · simp only [rank]; omega
    · rename_i hk
      have := (List.getElem?_eq_some_iff.1 hk).1
      simp only [rank]; omega

/-- The members keep their number, and goroutines that are about to write, write inside. -/
def Sane (n : Nat) (s : Sys α) : Prop :=
  s.obj.kvs.length = n ∧ ∀ (j : Nat) (name : Bytes) (i : Nat) (x : Bytes), s.ts[j]? = some (name, Pc.unWrite i x) → i < n

theorem sane_step {E : Env} {n : Nat} {s : Sys α} (h : Sane n s) (j : Nat) : Sane n (s.step E j) := by
  unfold Sys.step
  split
  · exact h
  · rename_i name pc ht
    refine ⟨(step_length E name s.obj pc).trans h.1, fun k name' i x hk => ?_⟩
    dsimp only at hk
    by_cases hkj : j = k
    · subst hkj
      rw [List.getElem?_set_self (List.getElem?_eq_some_iff.1 ht).1] at hk
      simp only [Option.some.injEq, Prod.mk.injEq] at hk
      obtain ⟨_, hk⟩ := hk
      revert hk
      cases pc with
      | unRead i' =>
        simp only [step]
        split
        · simp
        · rename_i hk'
          have := (List.getElem?_eq_some_iff.1 hk').1
          simp only [Pc.unWrite.injEq]
          intro hh
          rw [← h.1, ← hh.1]
          exact this
      | start => simp only [step]; split <;> simp
      | un => simp only [step]; split <;> simp
      | scan1 i => simp only [step]; split <;> (try split) <;> simp <;> (split <;> simp)
      | scan2 i => simp only [step]; split <;> (try split) <;> simp <;> (split <;> simp)
      | unWrite i s => simp only [step]; simp
      | done r => simp only [step]; simp
    · rw [List.getElem?_set_ne hkj] at hk
      exact h.2 k name' i x hk

/-- The rank of goroutine `j`. -/
def rankAt (n : Nat) (s : Sys α) (j : Nat) : Nat :=
  match s.ts[j]? with
  | some (_, pc) => rank n pc
  | none => 0

theorem rankAt_step {E : Env} {n : Nat} {s : Sys α} (h : Sane n s) (j k : Nat) :
    rankAt n (s.step E j) k ≤ rankAt n s k - (if j = k then 1 else 0) := by
  unfold Sys.step
  split
  · rename_i hn
    by_cases hjk : j = k
    · subst hjk; simp [rankAt, hn]
    · simp [hjk]
  · rename_i name pc ht
    by_cases hjk : j = k
    · subst hjk
      simp only [rankAt, ht, List.getElem?_set_self (List.getElem?_eq_some_iff.1 ht).1, if_true]
      by_cases hr : rank n pc = 0
      · have : ∃ r, pc = .done r := by
          cases pc <;> simp only [rank] at hr <;> first | exact ⟨_, rfl⟩ | omega
        obtain ⟨r, rfl⟩ := this
        simp [step, rank]
      · have := step_rank E name s.obj pc (fun i x e => by rw [h.1]; exact h.2 j name i x (by rw [ht, e])) (by rw [h.1]; exact hr)
        rw [h.1] at this
        omega
    · simp only [rankAt, List.getElem?_set_ne hjk, if_neg hjk]
      exact Nat.le_refl _

theorem rankAt_run {E : Env} {n : Nat} (k : Nat) (sched : List Nat) : ∀ {s : Sys α}, Sane n s →
    rankAt n (s.run E sched) k ≤ rankAt n s k - sched.count k := by
  induction sched with
  | nil => intro s _; simp [Sys.run]
  | cons j r ih =>
    intro s h
    have h1 := ih (sane_step (E := E) h j)
    have h2 := rankAt_step (E := E) h j k
    have h3 : s.run E (j :: r) = (s.step E j).run E r := rfl
    rw [h3, List.count_cons]
    by_cases hjk : j = k
    · subst hjk
      simp only [if_true, beq_self_eq_true] at h2 ⊢
      omega
    · have : (j == k) = false := by simpa using hjk
      simp only [hjk, this, if_false] at h2 ⊢
      simp only [Bool.false_eq_true, if_false]
      omega

theorem run_names {E : Env} (sched : List Nat) : ∀ {s : Sys α} {j : Nat}, ((s.run E sched).ts[j]?).map Prod.fst = (s.ts[j]?).map Prod.fst := by
  induction sched with
  | nil => intros; rfl
  | cons k r ih =>
    intro s j
    have h3 : s.run E (k :: r) = (s.step E k).run E r := rfl
    rw [h3, ih]
    unfold Sys.step
    split
    · rfl
    · rename_i name pc ht
      dsimp only
      by_cases h : k = j
      · subst h
        rw [List.getElem?_set_self (List.getElem?_eq_some_iff.1 ht).1, ht]
        rfl
      · rw [List.getElem?_set_ne h]

end Dxs.Conc
