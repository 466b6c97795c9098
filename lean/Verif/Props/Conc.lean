import Verif.Conc.Proof
import Verif.EnvEx
import Verif.Props.Api
import Verif.Heap.Calls
import Verif.Heap.Merge
import Verif.Heap.Example

/-!
# Goroutines that only read

C52: lookups of names in one object. C77: `String` of one string. The goroutines do their steps in any order (`sched`).
-/

namespace Dxs.Conc
open Dxs.Heap

/-- The answers are those of `indexByName` alone; a goroutine that got enough turns has its answer. -/
def Right (E : Env) (ku : Bool) (kvs : List (Bytes × Val)) : Prop :=
  ∀ (names : List Bytes) (sched : List Nat) (j : Nat) (name : Bytes), names[j]? = some name →
    (∀ r, ((Sys.init ku kvs names).run E sched).answer j = some r → r = (indexByName E ku kvs name).1) ∧
    (4 * kvs.length + 5 ≤ sched.count j → ((Sys.init ku kvs names).run E sched).answer j ≠ none)

/-- In particular one goroutine alone. -/
theorem Right.alone {E : Env} {ku : Bool} {kvs : List (Bytes × Val)} (h : Right E ku kvs) (name : Bytes) (n : Nat) (hn : 4 * kvs.length + 5 ≤ n) :
    ((Sys.init ku kvs [name]).run E (List.replicate n 0)).answer 0 = some (indexByName E ku kvs name).1 := by
  obtain ⟨h1, h2⟩ := h [name] (List.replicate n 0) 0 name rfl
  have h3 := h2 (by simpa using hn)
  cases hr : ((Sys.init ku kvs [name]).run E (List.replicate n 0)).answer 0 with
  | none => exact absurd hr h3
  | some r => rw [h1 r hr]

theorem right_of {E : Env} (L : KeyLaws E) {ku : Bool} {kvs : List (Bytes × Val)}
    (hM : ku = false → Mild E kvs (unescKeys E ku kvs)) (ha : ∀ name, (indexByName E ku kvs name).1 = findKey E (unescKeys E ku kvs) name) :
    Right E ku kvs := by
  intro names sched j name hj
  have hu : ku = true → unescKeys E ku kvs = kvs := by rintro rfl; rfl
  have hl : (unescKeys E ku kvs).length = kvs.length := by unfold unescKeys; split <;> simp
  have hI := sys_run_inv L hM hu sched (sys_init_inv (E := E) hl hu names)
  have hnames := run_names (E := E) sched (s := Sys.init ku kvs names) (j := j)
  have hinit : (Sys.init ku kvs names).ts[j]? = some (name, Pc.start) := by simp [Sys.init, hj]
  rw [hinit] at hnames
  constructor
  · intro r hr
    unfold Sys.answer at hr
    split at hr
    · rename_i n' r' ht
      cases hr
      rw [ht] at hnames
      have hn' : n' = name := by simpa using hnames
      subst hn'
      have := hI.2 j _ ht
      rw [ha]
      exact this
    · exact absurd hr (by simp)
  · intro hc
    have hs : Sane kvs.length (Sys.init ku kvs names) := by
      refine ⟨rfl, fun k name' i x hk => ?_⟩
      simp only [Sys.init, List.getElem?_map, Option.map_eq_some_iff, Prod.mk.injEq] at hk
      obtain ⟨_, _, _, hk⟩ := hk
      exact absurd hk (by simp)
    have hr := rankAt_run (E := E) j sched hs
    have h0 : rankAt kvs.length (Sys.init ku kvs names) j = 4 * kvs.length + 5 := by simp [rankAt, hinit, rank]
    have hz : rankAt kvs.length ((Sys.init ku kvs names).run E sched) j = 0 := by omega
    revert hz hnames
    unfold rankAt Sys.answer
    cases ((Sys.init ku kvs names).run E sched).ts[j]? with
    | none => intro h; simp at h
    | some t =>
      obtain ⟨n', pc⟩ := t
      intro _ hz
      cases pc <;> simp only [rank] at hz <;> first | omega | simp

/-- Names that are distinct, and that unescaping twice leaves as unescaping once does: the answers are right, in every order of
steps, for any number of goroutines. (Every name that unescapes to a text without `\` is such a name.) -/
theorem C52_readers_partial {E : Env} (L : KeyLaws E) (ku : Bool) (kvs : List (Bytes × Val)) (hd : Assoc.Distinct E.keyMatch (members E (.obj ku kvs)))
    (ho : ku = false → ∀ kv ∈ kvs, E.unesc (E.unesc kv.1) = E.unesc kv.1) : Right E ku kvs := by
  apply right_of L
  · rintro rfl
    refine ⟨by simp [unescKeys], ?_, ?_, ?_⟩
    · intro i h h' hp
      have := L.plain _ hp
      simp [unescKeys, this]
    · intro i h h'
      simp [unescKeys, ho rfl (kvs[i]) (List.getElem_mem h)]
    · rw [members_obj] at hd
      exact Or.inl hd
  · intro name
    have := indexByName_members L ku kvs hd name
    rw [this, members_obj]
    rfl

/-- Nothing to unescape, names may be the same: the answers are right. -/
theorem C52_readers_plain_partial {E : Env} (L : KeyLaws E) (ku : Bool) (kvs : List (Bytes × Val))
    (ho : ku = false → ∀ kv ∈ kvs, 92 ∉ kv.1) : Right E ku kvs := by
  have hu : unescKeys E ku kvs = kvs := by
    unfold unescKeys
    split
    · rfl
    · rename_i hk
      conv => rhs; rw [← List.map_id kvs]
      apply List.map_congr_left
      intro kv hkv
      rw [L.plain _ (ho (by simpa using hk) kv hkv)]
      rfl
  apply right_of L
  · rintro rfl
    rw [hu]
    refine ⟨rfl, fun _ _ _ _ => rfl, ?_, Or.inr rfl⟩
    intro i h h'
    have := L.plain _ (ho rfl (kvs[i]) (List.getElem_mem h))
    exact ⟨this, this, rfl⟩
  · intro name
    unfold indexByName
    rw [hu]
    split
    · split
      · rename_i h; rw [h]
      · rfl
    · rfl

/-- An object whose names have been unescaped is only read: no step writes to it, so the lookups do not even race. -/
theorem C52_settled_no_write (E : Env) (kvs : List (Bytes × Val)) (names : List Bytes) (sched : List Nat) :
    ((Sys.init true kvs names).run E sched).obj = { ku := true, kvs := kvs } := by
  suffices h : ∀ s : Sys Val, s.obj = { ku := true, kvs := kvs } →
      (∀ (j : Nat) (n : Bytes) (pc : Pc), s.ts[j]? = some (n, pc) → (∀ i, pc ≠ .unRead i) ∧ ∀ i x, pc ≠ .unWrite i x) →
      (s.run E sched).obj = { ku := true, kvs := kvs } by
    apply h _ rfl
    intro j n pc hj
    simp only [Sys.init, List.getElem?_map, Option.map_eq_some_iff, Prod.mk.injEq] at hj
    obtain ⟨_, _, _, rfl⟩ := hj
    exact ⟨by simp, by simp⟩
  induction sched with
  | nil => exact fun s h _ => h
  | cons k r ih =>
    intro s hs ht
    have h3 : s.run E (k :: r) = (s.step E k).run E r := rfl
    rw [h3]
    unfold Sys.step
    split
    · exact ih s hs ht
    · rename_i name pc hk
      have hp := ht k name pc hk
      have key : (step E name s.obj pc).1 = { ku := true, kvs := kvs } ∧ (∀ i, (step E name s.obj pc).2 ≠ .unRead i) ∧ ∀ i x, (step E name s.obj pc).2 ≠ .unWrite i x := by
        rw [hs]
        cases pc with
        | unRead i => exact absurd rfl (hp.1 i)
        | unWrite i x => exact absurd rfl (hp.2 i x)
        | start => simp [step]
        | un => simp [step]
        | scan1 i => simp only [step]; split <;> simp <;> (constructor <;> intros <;> split <;> simp)
        | scan2 i => simp only [step]; split <;> simp <;> (constructor <;> intros <;> split <;> simp)
        | done q => simp [step]
      apply ih _ key.1
      intro j n pc' hj
      dsimp only at hj
      by_cases h : k = j
      · subst h
        rw [List.getElem?_set_self (List.getElem?_eq_some_iff.1 hk).1] at hj
        cases hj
        exact key.2
      · rw [List.getElem?_set_ne h] at hj
        exact ht j n pc' hj

/-- The object parsed from `{"a\\n":null}`: its name is the three bytes `a`, `\`, `n`. -/
def oneName : List (Bytes × Val) := [([97, 92, 92, 110], .null)]

/-- Two goroutines look up the only name of that object, as it is. Alone each finds it (`indexByName`). In this order both unescape
the name, the second time to `a` and a newline; neither finds it, and no lookup ever will: the object has another name now. -/
theorem C52_race : ∃ sched : List Nat,
    (indexByName envEx false oneName [97, 92, 110]).1 = some 0 ∧
    ((Sys.init false oneName [[97, 92, 110], [97, 92, 110]]).run envEx sched).answer 0 = some none ∧
    ((Sys.init false oneName [[97, 92, 110], [97, 92, 110]]).run envEx sched).answer 1 = some none ∧
    (((Sys.init false oneName [[97, 92, 110], [97, 92, 110]]).run envEx sched).obj.kvs.map Prod.fst) = [[97, 10]] :=
  ⟨[0, 0, 0, 0, 1, 1, 1, 1, 1, 1, 1, 0, 0, 0], by decide⟩

/-- The condition that the names are distinct is needed too: with the same escaped name (`\b`) twice, alone the first is found; a
goroutine that has passed the first while it was escaped may find the second, which another goroutine has unescaped meanwhile. -/
theorem C52_race_same_names : ∃ sched : List Nat,
    (indexByName envEx false [([92, 98], Val.null), ([92, 98], Val.null)] [98]).1 = some 0 ∧
    ((Sys.init false [([92, 98], Val.null), ([92, 98], Val.null)] [[98], [99]]).run envEx sched).answer 0 = some (some 1) :=
  ⟨[0, 0] ++ List.replicate 15 1 ++ [0], by decide⟩

/-- Non-vacuity: two escaped names (`\b` and `\c`), distinct, looked up by two goroutines; one interleaving. -/
example : Assoc.Distinct envEx.keyMatch (members envEx (.obj false [([92, 98], .null), ([92, 99], .null)])) ∧
    (∀ kv ∈ [(([92, 98] : Bytes), Val.null), ([92, 99], .null)], envEx.unesc (envEx.unesc kv.1) = envEx.unesc kv.1) ∧
    ((Sys.init false [([92, 98], Val.null), ([92, 99], .null)] [[98], [99]]).run envEx
      ([0, 0, 0, 0, 1, 1, 1, 0, 0, 0, 1, 0, 1, 1, 0, 0, 0] ++ List.replicate 13 1 ++ List.replicate 13 0)).answer 0 = some (some 0) ∧
    ((Sys.init false [([92, 98], Val.null), ([92, 99], .null)] [[98], [99]]).run envEx
      ([0, 0, 0, 0, 1, 1, 1, 0, 0, 0, 1, 0, 1, 1, 0, 0, 0] ++ List.replicate 13 1 ++ List.replicate 13 0)).answer 1 = some (some 1) := by
  refine ⟨?_, ?_, ?_⟩ <;> first | decide | (unfold Assoc.Distinct; decide)

/-! ## Strings -/

/-- What `String` returns alone. -/
def text (E : Env) (raw : Bool) (s : Bytes) : Bytes := if raw then E.unesc s else s

/-- A string that needs no unescaping reads the same for all goroutines, in every order of steps. -/
theorem C77_string_partial (E : Env) (raw : Bool) (s : Bytes) (h : raw = true → E.unesc s = s) (n : Nat) (sched : List Nat) (j : Nat) (r : Bytes)
    (hr : ((SSys.init raw s n).run E sched).answer j = some r) : r = text E raw s := by
  have ht : text E raw s = s := by unfold text; split <;> simp_all
  rw [ht]
  suffices hs : ∀ t : SSys, t.obj.s = s → (t.obj.raw = true → raw = true) →
      (∀ (k : Nat) (pc : SPc), t.ts[k]? = some pc → (∀ x, pc = .wr x → x = s ∧ raw = true) ∧ (∀ x, pc = .done x → x = s) ∧
        ((pc = .setType ∨ pc = .rd) → raw = true)) →
      (t.run E sched).answer j = some r → r = s by
    apply hs _ rfl (fun h => h) ?_ hr
    intro k pc hk
    simp only [SSys.init, List.getElem?_replicate] at hk
    split at hk
    · cases hk
      refine ⟨by simp, by simp, by simp⟩
    · cases hk
  clear hr
  induction sched with
  | nil =>
    intro t _ _ hd ha
    change t.answer j = some r at ha
    unfold SSys.answer at ha
    split at ha
    · rename_i hk
      cases ha
      exact (hd j _ hk).2.1 _ rfl
    · cases ha
  | cons k q ih =>
    intro t ho hraw hd ha
    change ((t.step E k).run E q).answer j = some r at ha
    apply ih (t.step E k) ?_ ?_ ?_ ha
    all_goals
      unfold SSys.step
      split
    · exact ho
    · rename_i pc hk
      have hp := hd k pc hk
      cases pc <;> simp only [sstep] <;> try exact ho
      rename_i x
      have := hp.1 x rfl
      rw [this.1]
      exact h this.2
    · exact hraw
    · rename_i pc hk
      cases pc <;> simp only [sstep] <;> first | exact hraw | simp
    · exact hd
    · rename_i pc hk
      have hp := hd k pc hk
      intro k' pc' hk'
      dsimp only at hk'
      by_cases e : k = k'
      · subst e
        rw [List.getElem?_set_self (List.getElem?_eq_some_iff.1 hk).1] at hk'
        cases hk'
        cases pc with
        | start =>
          simp only [sstep]
          cases hb : t.obj.raw with
          | true => simp [hraw hb]
          | false => simp
        | setType => simp [sstep, hp.2.2]
        | rd => simp [sstep, ho, hp.2.2]
        | wr x => simp [sstep]
        | ret => simp [sstep, ho]
        | done x => simpa [sstep] using hp.2.1 x rfl
      · rw [List.getElem?_set_ne e] at hk'
        exact hd k' pc' hk'

/-- A parsed string with an escape: one goroutine may get the text with the escape still in it, because the type is changed before
the text. -/
theorem C77_race_escaped : ∃ sched : List Nat, text envEx true [92, 110] = [10] ∧
    ((SSys.init true [92, 110] 2).run envEx sched).answer 1 = some [92, 110] ∧ ((SSys.init true [92, 110] 2).run envEx sched).answer 0 = some [10] :=
  ⟨[0, 0, 1, 1, 0, 0, 0], by decide⟩

/-- Or the text may be unescaped twice, and stays so. -/
theorem C77_race_twice : ∃ sched : List Nat, text envEx true [92, 92, 110] = [92, 110] ∧
    ((SSys.init true [92, 92, 110] 2).run envEx sched).answer 0 = some [92, 110] ∧
    ((SSys.init true [92, 92, 110] 2).run envEx sched).answer 1 = some [10] ∧ ((SSys.init true [92, 92, 110] 2).run envEx sched).obj.s = [10] :=
  ⟨[0, 1, 0, 0, 0, 0, 1, 1, 1, 1], by decide⟩

/-- Non-vacuity: a raw string without escapes, three goroutines. -/
example : envEx.unesc [97, 98] = [97, 98] ∧ ((SSys.init true [97, 98] 3).run envEx [0, 1, 2, 0, 2, 0, 2, 0, 0, 2, 1, 2, 1, 1, 1]).answer 2 = some [97, 98] := by decide

/-! ## Values that have been read before -/

/-- A set of nodes closed under taking members: no string to unescape, no object with names to unescape. The nodes may form any
graph. -/
def Calm (m : Ptr → Node) (S : Ptr → Prop) : Prop :=
  ∀ p, S p → (m p).dt ≠ .rawString ∧ ((m p).dt = .object → (m p).ku = true) ∧ ∀ q, some q ∈ Node.kids (m p) → S q

/-- The calls that only read, on nodes of `S`. -/
inductive Reads (S : Ptr → Prop) : Call → Prop
  | valueByName (p k) : S p → Reads S (.valueByName p k)
  | valueByPath (p path) : S p → Reads S (.valueByPath p path)
  | string (p json) : S p → Reads S (.string p json)
  | items (p i) : S p → Reads S (.items p i)

theorem objIndex_calm {E : Env} {h : Heap} {p : Ptr} (hk : (h.mem p).ku = true) (name : Bytes) : (objIndex E h p name).2 = h := by
  simp only [objIndex, indexByName, hk, unescKeys]
  simp only [Bool.not_true, Bool.false_and, Bool.false_eq_true, if_false, if_true]
  rw [← hk]
  exact set_self h p

theorem valueByName_calm {E : Env} {h : Heap} {S : Ptr → Prop} (hS : Calm h.mem S) {p : Ptr} (hp : S p) (name : Bytes) :
    (valueByName E h p name).2 = h ∧ ∀ q, (valueByName E h p name).1 = some q → S q := by
  unfold valueByName
  split
  · rename_i hdt
    have h1 := objIndex_calm (E := E) ((hS p hp).2.1 hdt) name
    refine ⟨h1, fun q hq => (hS p hp).2.2 q ?_⟩
    simp only [objGet, h1] at hq
    obtain ⟨i, _, hi⟩ := Option.bind_eq_some_iff.1 hq
    obtain ⟨kv, hkv, hq⟩ := Option.bind_eq_some_iff.1 hi
    simp only [Node.kids, hdt]
    rw [← hq]
    exact List.mem_map_of_mem (List.mem_of_getElem? hkv)
  · rename_i hdt
    dsimp only
    split
    · refine ⟨rfl, fun q hq => (hS p hp).2.2 q ?_⟩
      dsimp only at hq
      obtain ⟨i, hi, hq⟩ := Option.bind_eq_some_iff.1 hq
      simp only [Node.kids, hdt]
      rw [← hq]
      exact List.mem_of_getElem? hi
    · exact ⟨rfl, by simp⟩
  · exact ⟨rfl, by simp⟩

theorem valueByPath_calm {E : Env} {h : Heap} {S : Ptr → Prop} (hS : Calm h.mem S) (path : List Bytes) : ∀ {p : Ptr}, S p →
    (valueByPath E h p path).2 = h := by
  induction path with
  | nil => intros; rfl
  | cons k r ih =>
    intro p hp
    obtain ⟨h1, h2⟩ := valueByName_calm (E := E) hS hp k
    unfold valueByPath
    revert h1 h2
    generalize valueByName E h p k = x
    obtain ⟨x, h'⟩ := x
    intro h1 h2
    dsimp only at h1
    subst h1
    cases x with
    | none => rfl
    | some q => exact ih (h2 q rfl)

/-- Reading a value without pending escapes writes nothing at all: any number of goroutines may do it, in any order, whatever the
memory model. -/
theorem C78_reads_write_nothing (E : Env) (h : Heap) (S : Ptr → Prop) (hS : Calm h.mem S) (cs : List Call) (hc : ∀ c ∈ cs, Reads S c) :
    ∀ c ∈ cs, Call.run E h c = .ok h := by
  intro c hcm
  cases hc c hcm with
  | valueByName p k hp => simp only [Call.run, (valueByName_calm (E := E) hS hp k).1]
  | valueByPath p path hp => simp only [Call.run, valueByPath_calm (E := E) hS path hp]
  | string p json hp =>
    have : (getString E json (h.mem p)).2 = h.mem p := by
      unfold getString
      split <;> try rfl
      rename_i hdt
      exact absurd hdt (hS p hp).1
    simp only [Call.run, this, set_self]
  | items p i hp =>
    simp only [Call.run, items]
    split
    · split <;> rfl
    · rename_i hdt
      split
      · have hk := (hS p hp).2.1 hdt
        dsimp only
        simp only [hk, unescKeys, if_true]
        rw [← hk, set_self]
      · rfl
    · rfl

theorem leaf_calm {m : Ptr → Node} {v : Val} {a : Option Ptr} {F : List Ptr} (hr : RepLeaf m v a F) (hn : v.vt ≠ .rawString) :
    (∀ p, a = some p → p ∈ F ∨ p < 5) ∧
    ∀ p ∈ F, (m p).dt ≠ .rawString ∧ ((m p).dt = .object → (m p).ku = true) ∧ ∀ q, some q ∈ Node.kids (m p) → q ∈ F ∨ q < 5 := by
  obtain ⟨p, rfl, rfl, hl⟩ := hr
  obtain ⟨h1, h2⟩ := leafOf_isLeaf hl
  unfold foot
  by_cases h5 : p < 5
  · rw [if_pos h5]
    refine ⟨fun q hq => ?_, by simp⟩
    cases hq
    exact Or.inr h5
  · rw [if_neg h5]
    rw [view_ge (by omega)] at hl h2
    have h3 : (m p).dt ≠ .object ∧ (m p).dt ≠ .array := by
      rw [← h2]
      cases v <;> first | (exact absurd h1 (by decide)) | (simp [Val.vt]; done) | (simp [Val.isLeaf] at h1; done)
    refine ⟨fun q hq => ?_, fun q hq => ?_⟩
    · cases hq
      exact Or.inl (by simp)
    · cases List.mem_singleton.1 hq
      refine ⟨by rw [← h2]; exact hn, fun h => absurd h h3.1, fun r hr => ?_⟩
      unfold Node.kids at hr
      split at hr
      · rename_i h; exact absurd h h3.1
      · rename_i h; exact absurd h h3.2
      · cases hr

mutual
theorem rep_calm {m : Ptr → Node} : ∀ {v : Val} {a : Option Ptr} {F : List Ptr}, Rep m v a F → Settled v →
    (∀ p, a = some p → p ∈ F ∨ p < 5) ∧
    ∀ p ∈ F, (m p).dt ≠ .rawString ∧ ((m p).dt = .object → (m p).ku = true) ∧ ∀ q, some q ∈ Node.kids (m p) → q ∈ F ∨ q < 5 := by
  intro v a F hr hs
  cases v with
  | nil =>
    obtain ⟨rfl, rfl⟩ := hr
    simp
  | obj ku kvs =>
    obtain ⟨p, F', rfl, hp, rfl, hdt, hku, hm⟩ := hr
    obtain ⟨h1, h2⟩ := repM_calm hm hs.2
    refine ⟨by simp, fun q hq => ?_⟩
    rcases List.mem_cons.1 hq with rfl | hq
    · refine ⟨by simp [hdt], fun _ => hku.trans hs.1, fun r hr => ?_⟩
      simp only [Node.kids, hdt, List.mem_map] at hr
      obtain ⟨kv, hkv, hr⟩ := hr
      rcases h1 kv hkv r hr with h | h
      · exact Or.inl (List.mem_cons_of_mem _ h)
      · exact Or.inr h
    · obtain ⟨a1, a2, a3⟩ := h2 q hq
      refine ⟨a1, a2, fun r hr => ?_⟩
      rcases a3 r hr with h | h
      · exact Or.inl (List.mem_cons_of_mem _ h)
      · exact Or.inr h
  | arr xs =>
    obtain ⟨p, F', rfl, hp, rfl, hdt, hm⟩ := hr
    obtain ⟨h1, h2⟩ := repL_calm hm hs
    refine ⟨by simp, fun q hq => ?_⟩
    rcases List.mem_cons.1 hq with rfl | hq
    · refine ⟨by simp [hdt], by simp [hdt], fun r hr => ?_⟩
      simp only [Node.kids, hdt] at hr
      rcases h1 _ hr r rfl with h | h
      · exact Or.inl (List.mem_cons_of_mem _ h)
      · exact Or.inr h
    · obtain ⟨a1, a2, a3⟩ := h2 q hq
      refine ⟨a1, a2, fun r hr => ?_⟩
      rcases a3 r hr with h | h
      · exact Or.inl (List.mem_cons_of_mem _ h)
      · exact Or.inr h
  | raw s => exact absurd hs (by simp [Settled])
  | _ => exact leaf_calm hr (by simp [Val.vt])
theorem repM_calm {m : Ptr → Node} : ∀ {xs : List (Bytes × Val)} {ps : List (Bytes × Option Ptr)} {F : List Ptr}, RepM m xs ps F → SettledM xs →
    (∀ kv ∈ ps, ∀ p, kv.2 = some p → p ∈ F ∨ p < 5) ∧
    ∀ p ∈ F, (m p).dt ≠ .rawString ∧ ((m p).dt = .object → (m p).ku = true) ∧ ∀ q, some q ∈ Node.kids (m p) → q ∈ F ∨ q < 5 := by
  intro xs ps F hr hs
  cases xs with
  | nil =>
    obtain ⟨rfl, rfl⟩ := hr
    simp
  | cons x xs =>
    obtain ⟨q, qs, F1, F2, rfl, rfl, h1, h2⟩ := hr
    obtain ⟨a1, a2⟩ := rep_calm h1 hs.1
    obtain ⟨b1, b2⟩ := repM_calm h2 hs.2
    refine ⟨fun kv hkv p hp => ?_, fun p hp => ?_⟩
    · rcases List.mem_cons.1 hkv with rfl | hkv
      · rcases a1 p hp with h | h
        · exact Or.inl (List.mem_append_left _ h)
        · exact Or.inr h
      · rcases b1 kv hkv p hp with h | h
        · exact Or.inl (List.mem_append_right _ h)
        · exact Or.inr h
    · rcases List.mem_append.1 hp with hp | hp
      · obtain ⟨c1, c2, c3⟩ := a2 p hp
        refine ⟨c1, c2, fun r hr => ?_⟩
        rcases c3 r hr with h | h
        · exact Or.inl (List.mem_append_left _ h)
        · exact Or.inr h
      · obtain ⟨c1, c2, c3⟩ := b2 p hp
        refine ⟨c1, c2, fun r hr => ?_⟩
        rcases c3 r hr with h | h
        · exact Or.inl (List.mem_append_right _ h)
        · exact Or.inr h
theorem repL_calm {m : Ptr → Node} : ∀ {xs : List Val} {ps : List (Option Ptr)} {F : List Ptr}, RepL m xs ps F → SettledL xs →
    (∀ a ∈ ps, ∀ p, a = some p → p ∈ F ∨ p < 5) ∧
    ∀ p ∈ F, (m p).dt ≠ .rawString ∧ ((m p).dt = .object → (m p).ku = true) ∧ ∀ q, some q ∈ Node.kids (m p) → q ∈ F ∨ q < 5 := by
  intro xs ps F hr hs
  cases xs with
  | nil =>
    obtain ⟨rfl, rfl⟩ := hr
    simp
  | cons x xs =>
    obtain ⟨q, qs, F1, F2, rfl, rfl, h1, h2⟩ := hr
    obtain ⟨a1, a2⟩ := rep_calm h1 hs.1
    obtain ⟨b1, b2⟩ := repL_calm h2 hs.2
    refine ⟨fun kv hkv p hp => ?_, fun p hp => ?_⟩
    · rcases List.mem_cons.1 hkv with rfl | hkv
      · rcases a1 p hp with h | h
        · exact Or.inl (List.mem_append_left _ h)
        · exact Or.inr h
      · rcases b1 kv hkv p hp with h | h
        · exact Or.inl (List.mem_append_right _ h)
        · exact Or.inr h
    · rcases List.mem_append.1 hp with hp | hp
      · obtain ⟨c1, c2, c3⟩ := a2 p hp
        refine ⟨c1, c2, fun r hr => ?_⟩
        rcases c3 r hr with h | h
        · exact Or.inl (List.mem_append_left _ h)
        · exact Or.inr h
      · obtain ⟨c1, c2, c3⟩ := b2 p hp
        refine ⟨c1, c2, fun r hr => ?_⟩
        rcases c3 r hr with h | h
        · exact Or.inl (List.mem_append_right _ h)
        · exact Or.inr h
end

/-- A tree without pending escapes is such a set, together with the shared constants. -/
theorem settled_calm {h : Heap} (I : Inv h) {v : Val} {a : Option Ptr} {F : List Ptr} (hr : Rep h.mem v a F) (hs : Settled v) :
    Calm h.mem (fun q => q ∈ F ∨ q < 5) := by
  intro p hp
  rcases hp with hp | hp
  · exact (rep_calm hr hs).2 p hp
  · have hc := I.const p hp
    have : (h.mem p).dt ≠ .rawString ∧ (h.mem p).dt ≠ .object ∧ (h.mem p).dt ≠ .array := by
      rw [hc]
      unfold constVT
      repeat' split
      all_goals simp
    refine ⟨this.1, fun h => absurd h this.2.1, fun q hq => ?_⟩
    unfold Node.kids at hq
    split at hq
    · rename_i h; exact absurd h this.2.1
    · rename_i h; exact absurd h this.2.2
    · cases hq

/-- The same, for a tree: reads of any node of a value without pending escapes write nothing. -/
theorem C78_settled_value (E : Env) (h : Heap) (I : Inv h) (v : Val) (a : Option Ptr) (F : List Ptr) (hr : Rep h.mem v a F) (hs : Settled v) (c : Call)
    (hc : Reads (fun q => q ∈ F ∨ q < 5) c) : Call.run E h c = .ok h :=
  C78_reads_write_nothing E h _ (settled_calm I hr hs) [c] (by simpa using hc) c (by simp)

/-- `Equal` of two values without pending escapes writes nothing either. -/
theorem C78_equal (E : Env) (f : Nat) (h h' : Heap) (I : Inv h) (v w : Val) (a b : Option Ptr) (F G : List Ptr) (hv : Rep h.mem v a F)
    (hw : Rep h.mem w b G) (sv : Settled v) (sw : Settled w) (e : Call.run E h (.equal f a b) = .ok h') : h' = h := by
  have := equal_settled E f h a b v w F G I hv hw sv sw
  simp only [Call.run] at e
  revert this e
  generalize equal E f h a b = r
  cases r with
  | ok x =>
    intro h2 h1
    cases h2
    exact h1.1
  | _ => intro h2; cases h2

/-- Non-vacuity: the array `[true,nil,"h"]` in a concrete memory is such a value; looking up "2" finds the string. -/
example : Inv exHeap ∧ Rep exHeap.mem (.arr [.tru, .nil, .str [104]]) (some 7) [7, 8] ∧ Settled (.arr [.tru, .nil, .str [104]]) ∧
    (valueByName envEx exHeap 7 [50]).1 = some 8 := by
  refine ⟨exInv, exGood7.rep, ?_, by decide⟩
  simp [Settled, SettledL]

end Dxs.Conc
