import Verif.Props.Outcome
import Verif.Props.Yaml
import Verif.Yaml.NoLoop
import Verif.Tree.Parse

/-!
# Every statement of a program comes to an end
-/

namespace Dxs.Reflect
open Heap
open Bson (bind_ne_loop)
open Yaml (setKeyCached_ne_loop)

section
variable (E : Env)

theorem scKey_ne_loop (h : Heap) (p : Ptr) (name : Bytes) (c : Option CId) (s : Sc) : scKey E h p name c s ≠ .loop := by
  cases s <;> simp only [scKey] <;> first | exact bind_ne_loop (setKeyCached_ne_loop E _ _ _ _ _) (fun _ _ => by simp) | simp

theorem rscKey_ne_loop (h : Heap) (p : Ptr) (name : Bytes) (c : Option CId) (fld : Bool) (s : Sc) : rscKey E h p name c fld s ≠ .loop := by
  cases s <;> simp only [rscKey]
  case uint => exact bind_ne_loop (setKeyCached_ne_loop E _ _ _ _ _) (fun _ _ => by split <;> simp)
  all_goals first | exact bind_ne_loop (setKeyCached_ne_loop E _ _ _ _ _) (fun _ _ => by simp) | simp

mutual
theorem setKeyvalue_ne_loop (g : Go) (h : Heap) (p : Ptr) (name : Bytes) (c : Option CId) : setKeyvalue E h p name c g ≠ .loop := by
  match g with
  | .nil => simp [setKeyvalue]
  | .sc s => rw [setKeyvalue]; exact scKey_ne_loop E h p name c s
  | .named _ => simp [setKeyvalue]
  | .time x => rw [setKeyvalue]; exact bind_ne_loop (setKeyCached_ne_loop E _ _ _ _ _) (fun _ _ => by simp)
  | .bytes b => rw [setKeyvalue]; exact bind_ne_loop (setKeyCached_ne_loop E _ _ _ _ _) (fun _ _ => by simp)
  | .map kvs => rw [setKeyvalue]; exact bind_ne_loop (setKeyCached_ne_loop E _ _ _ _ _) (fun _ _ => setKeys_ne_loop kvs _ _ _)
  | .slice xs => rw [setKeyvalue]; exact bind_ne_loop (setKeyCached_ne_loop E _ _ _ _ _) (fun _ _ => setItems_ne_loop xs _ _ _ _)
  | .rmap [] => simp [setKeyvalue]
  | .rmap (kv :: kvs) => rw [setKeyvalue]; exact bind_ne_loop (setKeyCached_ne_loop E _ _ _ _ _) (fun _ _ => setFields_ne_loop (kv :: kvs) _ _ _ _)
  | .rslice xs => rw [setKeyvalue]; exact bind_ne_loop (setKeyCached_ne_loop E _ _ _ _ _) (fun _ _ => setRItems_ne_loop xs _ _ _ _)
  | .struct fs => rw [setKeyvalue]; exact bind_ne_loop (setKeyCached_ne_loop E _ _ _ _ _) (fun _ _ => setFields_ne_loop fs _ _ _ _)
  | .nilPtr basic => rw [setKeyvalue]; split <;> simp
  | .other => simp [setKeyvalue]
theorem setIndexvalue_ne_loop (g : Go) (h : Heap) (p : Ptr) (i : Nat) (c : Option CId) : setIndexvalue E h p i c g ≠ .loop := by
  match g with
  | .nil => simp [setIndexvalue]
  | .sc s => simp [setIndexvalue]
  | .named _ => simp [setIndexvalue]
  | .time x => simp [setIndexvalue]
  | .bytes b => simp [setIndexvalue]
  | .map kvs => rw [setIndexvalue]; exact setKeys_ne_loop kvs _ _ _
  | .slice xs => rw [setIndexvalue]; exact setItems_ne_loop xs _ _ _ _
  | .rmap [] => simp [setIndexvalue]
  | .rmap (kv :: kvs) => rw [setIndexvalue]; exact setFields_ne_loop (kv :: kvs) _ _ _ _
  | .rslice xs => rw [setIndexvalue]; exact setRItems_ne_loop xs _ _ _ _
  | .struct fs => rw [setIndexvalue]; exact setFields_ne_loop fs _ _ _ _
  | .nilPtr _ => simp [setIndexvalue]
  | .other => simp [setIndexvalue]
theorem setKeys_ne_loop (kvs : List (Bytes × Go)) (h : Heap) (p : Ptr) (c : Option CId) : setKeys E h p c kvs ≠ .loop := by
  match kvs with
  | [] => simp [setKeys]
  | (k, g) :: kvs => rw [setKeys]; exact bind_ne_loop (setKeyvalue_ne_loop g _ _ _ _) (fun _ _ => setKeys_ne_loop kvs _ _ _)
theorem setItems_ne_loop (xs : List Go) (h : Heap) (p : Ptr) (c : Option CId) (i : Nat) : setItems E h p c i xs ≠ .loop := by
  match xs with
  | [] => simp [setItems]
  | g :: xs => rw [setItems]; exact bind_ne_loop (setIndexvalue_ne_loop g _ _ _ _) (fun _ _ => setItems_ne_loop xs _ _ _ _)
theorem setRItems_ne_loop (xs : List Go) (h : Heap) (p : Ptr) (c : Option CId) (i : Nat) : setRItems E h p c i xs ≠ .loop := by
  match xs with
  | [] => simp [setRItems]
  | g :: xs =>
    have key := setIndexvalue_ne_loop g h p i c
    rw [setRItems_cons]
    refine bind_ne_loop ?_ (fun _ _ => setRItems_ne_loop xs _ _ _ _)
    cases g <;> first | exact key | simp [rItem]
theorem setFields_ne_loop (fs : List (Bytes × Go)) (h : Heap) (p : Ptr) (c : Option CId) (fld : Bool) : setFields E h p c fld fs ≠ .loop := by
  match fs with
  | [] => simp [setFields]
  | (k, g) :: fs =>
    have key := setKeyvalue_ne_loop g h p k c
    rw [setFields_cons]
    refine bind_ne_loop ?_ (fun _ _ => setFields_ne_loop fs _ _ _ _)
    cases g <;> first | exact rscKey_ne_loop E _ _ _ _ _ _ | exact key | simp [field]
end

theorem setValue_ne_loop (h : Heap) (p : Ptr) (g : Go) : setValue E h p g ≠ .loop := by
  unfold setValue
  split
  · simp
  · split <;> first
      | simp; done
      | exact setKeys_ne_loop E _ _ _ _
      | exact setItems_ne_loop E _ _ _ _ _
      | exact setFields_ne_loop E _ _ _ _ _
      | exact setRItems_ne_loop E _ _ _ _ _
      | (split <;> simp)
end
end Dxs.Reflect

namespace Dxs.Heap
open Json (skipWB)
open Bson (bind_ne_loop)
open Yaml (setKeyCached_ne_loop)

theorem forceStep_ne_loop (E : Env) (h : Heap) (llast last : Option Ptr) (cur : Ptr) (prev key : Bytes) : forceStep E h llast last cur prev key ≠ .loop := by
  have sk : ∀ (h : Heap) (p : Ptr) (k : Bytes) (t : VT), setKey E h p k t ≠ .loop := fun _ _ _ _ => setKeyCached_ne_loop E _ _ _ _ _
  unfold forceStep
  dsimp only
  generalize (valueByName E h cur key).2 = h1
  generalize (if last.isSome then last else llast) = ll
  split
  · simp
  split
  · split
    · exact bind_ne_loop (sk _ _ _ _) (fun _ _ => by simp)
    · simp
  · exact bind_ne_loop (sk _ _ _ _) (fun _ _ => by simp)
  · split
    · split
      · simp
      · exact bind_ne_loop (sk _ _ _ _) (fun _ _ => bind_ne_loop (sk _ _ _ _) (fun _ _ => by simp))
    · exact bind_ne_loop (sk _ _ _ _) (fun _ _ => by simp)

theorem forceLoop_ne_loop (E : Env) (t : VT) : ∀ (path : List Bytes) (h : Heap) (llast last : Option Ptr) (cur : Ptr) (prev : Bytes), forceLoop E t h llast last cur prev path ≠ .loop
  | [], _, _, _, _, _ => by simp [forceLoop]
  | [key], _, _, _, _, _ => by rw [forceLoop]; exact setKeyCached_ne_loop E _ _ _ _ _
  | key :: key2 :: path, h, llast, last, cur, prev => by
    rw [forceLoop]
    exact bind_ne_loop (forceStep_ne_loop E _ _ _ _ _ _) (fun _ _ => forceLoop_ne_loop E t (key2 :: path) _ _ _ _ _)

/-- A merge that is covered succeeds. -/
theorem mergeWith_ok {E : Env} {h : Heap} {p q : Ptr} {v u : Val} {F G : List Ptr} (gp : Good h (some p) v F) (gq : Good h (some q) u G) (hd : ∀ r ∈ G, r ∉ F)
    (g : Option (Bytes → MergeOp)) (f : Nat) (hc : mergeable E g f h.mem p q = true) : ∃ h', mergeWith E (byPathOp g) f h (some p) (some q) = .ok h' := by
  simp only [mergeable, Bool.and_eq_true] at hc
  obtain ⟨⟨c1, c2⟩, c3⟩ := hc
  have hcp := copyable_rep gq.rep c1
  have htd := tidy_rep gq.rep c2
  cases hv : valOf f h.mem (some p) with
  | none => rw [hv] at c3; cases c3
  | some v' =>
    cases hw : valOf f h.mem (some q) with
    | none => rw [hv, hw] at c3; cases v' <;> cases c3
    | some u' =>
      obtain rfl := valOf_rep gp.rep hv
      obtain rfl := valOf_rep gq.rep hw
      rw [hv, hw] at c3
      have other : (v'.vt ≠ u'.vt ∨ 1 < v'.vt.ord) → ∃ h', mergeWith E (byPathOp g) f h (some p) (some q) = .ok h' := by
        intro hne
        have hp := rep_dt gp.rep
        have hq := rep_dt gq.rep
        simp only [mergeWith, hp, hq]
        exact ⟨h, if_pos (hne.imp (fun h => Ne.symm h) id)⟩
      cases v' with
      | obj ku kvs =>
        cases u' with
        | obj ku' kvs' =>
          simp only [Bool.and_eq_true, decide_eq_true_eq, Option.isSome_iff_exists] at c3
          obtain ⟨⟨hn, hf⟩, ⟨ku2, kvs2⟩, hm⟩ := c3
          obtain ⟨h2, F2, e2, u⟩ := mergeObject_deep E (asks_path g) f kvs' p q ku' kvs' G 0 h [] ku kvs F ku2 kvs2 hn rfl hf gp gq hd hcp htd hm
          refine ⟨h2, ?_⟩
          simp only [mergeWith, show (h.mem p).dt = .object from rep_dt gp.rep, show (h.mem q).dt = .object from rep_dt gq.rep]
          simpa [VT.ord] using e2
        | _ => exact other (Or.inl (by simp [Val.vt]))
      | arr ys =>
        cases u' with
        | arr xs =>
          simp only [Bool.and_eq_true, decide_eq_true_eq, List.all_eq_true] at c3
          obtain ⟨⟨⟨⟨hn, hf⟩, sx⟩, sy⟩, ht⟩ := c3
          obtain ⟨h2, G', e2, u⟩ := mergeWith_arr (E := E) (byPathOp g) gp gq (settledL_iff.1 sy) (settledL_iff.1 sx) hcp hn hf (fun x hx y hy => by
            have := ht x hx y hy
            split at this
            · exact ⟨_, ‹_›⟩
            · cases this) hd
          exact ⟨h2, e2⟩
        | _ => exact other (Or.inl (by simp [Val.vt]))
      | _ => exact other (by simpa using c3)

theorem walk_ne_loop (s : St) (i : Nat) (π : List Nat) : s.walk i π ≠ .loop := by
  unfold St.walk
  split <;> simp

theorem take_ne_loop (s : St) (i : Nat) {y : Out (Option Ptr)} (h : y.ends ≠ .never) : s.take i y ≠ .loop := by
  cases y with
  | loop => exact absurd rfl h
  | _ => simp [St.take]

theorem takeJson_ne_loop (s : St) (i : Nat) (junk : Ptr → List (Bytes × Option Ptr)) {y : Out (Option Ptr)} (h : y.ends ≠ .never) : s.takeJson i junk y ≠ .loop := by
  cases y with
  | loop => exact absurd rfl h
  | _ => simp [St.takeJson]

theorem loaded_ne_loop (s : St) {y : Out Unit} (h : y.ends ≠ .never) : s.loaded y ≠ .loop := by
  cases y with
  | loop => exact absurd rfl h
  | _ => simp [St.loaded]

theorem loadedJson_ne_loop (s : St) (i : Nat) (q : Ptr) (junk : Ptr → List (Bytes × Option Ptr)) {y : Out Unit} (h : y.ends ≠ .never) : s.loadedJson i q junk y ≠ .loop := by
  cases y with
  | loop => exact absurd rfl h
  | _ => simp [St.loadedJson]

theorem newYaml_ne_loop (E : Env) (s : St) (i : Nat) {b : Bytes} (hs : 42 ∉ b) (hl : Yaml.LastOk b) (cached : Bool) (pick : Heap → Option Nat) (p : Yaml.Parser) : s.newYaml E i b cached pick p ≠ .loop := by
  have h : Yaml.newValueFromYaml E pick (b.length + 1) p.reset s.heap b cached ≠ .loop :=
    bind_ne_loop (Yaml.parse_ne_loop E pick hs hl _ (by omega) _) (fun _ _ => by simp)
  unfold St.newYaml
  split
  · simp
  · simp
  · simp
  · contradiction

theorem loadYaml_ne_loop (E : Env) (s : St) (q : Ptr) {b : Bytes} (hs : 42 ∉ b) (hl : Yaml.LastOk (b.dropWhile Yaml.isWB)) (pick : Heap → Option Nat) (p : Yaml.Parser) : s.loadYaml E q b pick p ≠ .loop := by
  have h : Yaml.loadFromYaml E pick (b.length + 1) p.reset s.heap q b ≠ .loop := by
    unfold Yaml.loadFromYaml
    dsimp only
    split
    · simp
    · refine bind_ne_loop (Yaml.parse_ne_loop E pick (fun h => hs ((List.dropWhile_suffix _).mem h)) hl _ ?_ _) (fun _ _ => by simp)
      have := (List.dropWhile_suffix (l := b) Yaml.isWB).length_le
      omega
  unfold St.loadYaml
  split
  · simp
  · simp
  · simp
  · contradiction

/-- The node is there. -/
theorem Sound.lt {s : St} {L : Nat → Option Live} (S : Sound s L) {i : Nat} {π : List Nat} {q : Ptr} (e : s.walk i π = .ok q) (h5 : 5 ≤ q) : q < s.heap.next := by
  obtain ⟨w, G, g, -⟩ := S.at e
  have := g.live q (rep_mem g.rep h5)
  rcases Nat.lt_or_ge q s.heap.next with h | h
  · exact h
  · exact absurd (Or.inl h) this

theorem loadable_ge {s : St} {π : List Nat} {q : Ptr} (h : s.loadable π q = true) : 5 ≤ q := by
  unfold St.loadable at h
  simp only [Bool.and_eq_true, Bool.not_eq_true'] at h
  exact Nat.le_of_not_lt (fun hl => by rw [shared_iff.2 hl] at h; cases h.1)

/-- The YAML texts of a statement: the last line has not exactly one byte (after the leading blanks, for `LoadFromYaml`). -/
def PCmd.linesOk : PCmd → Prop
  | .newYaml _ b _ _ _ => Yaml.LastOk b
  | .loadYaml _ _ b _ _ => Yaml.LastOk (b.dropWhile Yaml.isWB)
  | _ => True

/-- A statement in a program comes to an end. -/
theorem PCmd.ends {s : St} {L : Nat → Option Live} {T : Trees} (hT : Holds s T) (S : Sound s L) (E : Env) (c : PCmd) (hc : c.linesOk) : c.exec E s ≠ .loop := by
  have I := S.world.inv
  cases c with
  | cmd c =>
    have r := Cmd.refine hT S E c
    intro e
    rw [show c.exec E s = .loop from e] at r
    exact r
  | newMsgPack i b cached pick =>
    refine take_ne_loop s i ?_
    rw [(newValueFromMsgPackH_spec E I b cached pick).ends]
    exact Res.ends_never (newMsgPack_ends E b)
  | newJson i b cached pick junk =>
    refine takeJson_ne_loop s i junk ?_
    rw [(newValueFromJsonH_spec E I b cached pick).ends]
    exact Res.ends_never (newJson_ends E b)
  | newBson i hid b cached pick =>
    refine take_ne_loop s i ?_
    rw [(newValueFromBsonH_spec E hid I b cached pick).ends]
    exact Res.ends_never (Bson.C57_terminates E hid b)
  | loadMsgPack i π b =>
    refine bind_ne_loop (walk_ne_loop s i π) (fun q e => ?_)
    split
    · exact loaded_ne_loop s (C121_returns E [] s.heap I q (S.lt e (loadable_ge ‹_›)) b).1
    · simp
  | loadJson i π b junk =>
    refine bind_ne_loop (walk_ne_loop s i π) (fun q e => ?_)
    split
    · exact loadedJson_ne_loop s i q junk (C121_returns E [] s.heap I q (S.lt e (loadable_ge ‹_›)) b).2.1
    · simp
  | loadBson i π hid b =>
    refine bind_ne_loop (walk_ne_loop s i π) (fun q e => ?_)
    split
    · exact loaded_ne_loop s (C121_returns E hid s.heap I q (S.lt e (loadable_ge ‹_›)) b).2.2
    · simp
  | forcePath i π t path =>
    refine bind_ne_loop (walk_ne_loop s i π) (fun q _ => ?_)
    split
    · simp
    · exact bind_ne_loop (bind_ne_loop (forceLoop_ne_loop E t path _ _ _ _ _) (fun _ _ => by simp)) (fun _ _ => by simp)
  | setValue i π g =>
    refine bind_ne_loop (walk_ne_loop s i π) (fun q _ => ?_)
    split
    · simp
    · exact bind_ne_loop (Reflect.setValue_ne_loop E _ _ g) (fun _ _ => by simp)
  | setKeyvalue i π k g own =>
    refine bind_ne_loop (walk_ne_loop s i π) (fun q _ => ?_)
    split
    · simp
    · exact bind_ne_loop (Reflect.setKeyvalue_ne_loop E g _ _ _ _) (fun _ _ => by simp)
  | setIndexvalue i π n g own =>
    refine bind_ne_loop (walk_ne_loop s i π) (fun q _ => ?_)
    split
    · simp
    · exact bind_ne_loop (Reflect.setIndexvalue_ne_loop E g _ _ _ _) (fun _ _ => by simp)
  | newYaml i b cached pick p =>
    show (if 42 ∈ b then _ else _) ≠ _
    split
    · simp
    · exact newYaml_ne_loop E s i ‹_› hc cached pick p
  | loadYaml i π b pick p =>
    refine bind_ne_loop (walk_ne_loop s i π) (fun q e => ?_)
    split
    · rename_i h
      simp only [Bool.and_eq_true, Bool.not_eq_true', decide_eq_false_iff_not] at h
      exact loadYaml_ne_loop E s q h.2 hc pick p
    · simp
  | merge i π j ρ g f =>
    refine bind_ne_loop (walk_ne_loop s i π) (fun p e => bind_ne_loop (walk_ne_loop s j ρ) (fun q e' => ?_))
    split
    · simp
    · rename_i h
      simp only [Bool.or_eq_true, beq_iff_eq, Bool.not_eq_true', not_or, Bool.not_eq_false] at h
      have h5 : 5 ≤ p := Nat.le_of_not_lt (fun hl => h.1.1 (shared_iff.2 hl))
      obtain ⟨x, w, Fq, hx, -, gp, hsub, -⟩ := S.walk e h5
      obtain ⟨w', G, gq, hG⟩ := S.at e'
      obtain ⟨h', e2⟩ := mergeWith_ok gp gq (fun r hr hF => by
        obtain ⟨y, hy, hry⟩ := hG r hr
        exact (S.world.apart i j x y h.1.2 hx hy).nodes r (hsub r hF) hry) g f h.2
      rw [e2]
      simp
  | newFrom i g cached pick =>
    refine bind_ne_loop (bind_ne_loop (Reflect.setValue_ne_loop E _ _ g) (fun _ _ => by simp)) (fun _ _ => by simp)

end Dxs.Heap
