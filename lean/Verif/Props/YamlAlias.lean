import Verif.Yaml.Alias
import Verif.Props.YamlBlock

/-!
# C106: anchors, aliases and merges of YAML mappings
-/

namespace Dxs.Yaml

open Dxs.Heap

/-! ## Texts -/

theorem root_firstA (E : Env) (pick : Heap → Option Nat) (f : Nat) {s : St} (I : Inv s.h) (h1 : s.p.stack = []) (h2 : s.p.last = -1) (ind : Nat) (d : ADoc) (hp : d.Plain) (hn : d.isNil = false) :
    runLines E pick f (d.lines ind) s = runLines E pick f (d.lines ind) (newRoot pick .object s) := by
  have any : ∀ {k v : Bytes} (r : List Bytes), EntryLine k v → runLines E pick f ((List.replicate ind 32 ++ (k ++ [58, 32] ++ v)) :: r) s =
      runLines E pick f ((List.replicate ind 32 ++ (k ++ [58, 32] ++ v)) :: r) (newRoot pick .object s) := by
    intro k v r pl
    obtain ⟨c, hc1, hc2, h35, h45⟩ := entry_head pl.key pl.khead ([58, 32] ++ v)
    have hl : 1 < (k ++ [58, 32] ++ v).length := by simp; omega
    have hcut : cutComment (k ++ [58, 32] ++ v) = k ++ [58, 32] ++ v := by simpa using cut_cmt pl.comment hl (c := []) (Or.inl rfl)
    rw [runLines_entry _ _ _ (by simpa using hc1) hc2 (by simp; omega), runLines_entry _ _ _ (by simpa using hc1) hc2 (by simp; omega),
      parseLine_first E pick f I h1 h2 ind (by simpa using hc1) h35 h45 hcut (splitKv_any pl.key pl.val pl.colon) (neat_ne pl.key)]
  cases d with
  | nil => cases hn
  | leaf k v r => exact any _ hp.1.entry
  | anchor k n v r => exact any _ hp.2.2.1
  | alias k n r => exact any _ hp.2.1
  | sub k a mg dd m r =>
    cases a with
    | some n => exact any _ (hp.2.1 n rfl).2
    | none =>
      obtain ⟨c, hc1, hc2, h35, h45⟩ := entry_head hp.1.key hp.1.khead [58]
      have hl : 0 < k.length := List.length_pos_iff.mpr (neat_ne hp.1.key)
      have hcut : cutComment (k ++ [58]) = k ++ [58] := by simpa using cut_cmt (hash_key hp.1.comment) (by simp; omega) (c := []) (Or.inl rfl)
      rw [ADoc.lines, ADoc.head, runLines_entry _ _ _ (by simpa using hc1) hc2 (by simp; omega), runLines_entry _ _ _ (by simpa using hc1) hc2 (by simp; omega),
        parseLine_first E pick f I h1 h2 ind (by simpa using hc1) h35 h45 hcut (splitKv_key hp.1) (neat_ne hp.1.key)]

theorem nl_entry {ind : Nat} {k v : Bytes} (h : 10 ∉ k ++ v) : 10 ∉ List.replicate ind 32 ++ (k ++ [58, 32] ++ v) := by
  simp only [List.mem_append, not_or, List.mem_replicate] at h ⊢
  exact ⟨by simp, ⟨h.1, by simp⟩, h.2⟩

theorem lines_nlA : ∀ (d : ADoc) (ind : Nat), d.Plain → ∀ l ∈ d.lines ind, 10 ∉ l
  | .nil, _, _ => by simp [ADoc.lines]
  | .leaf k v r, ind, h => by
    intro x hx
    rcases List.mem_cons.mp hx with rfl | hx
    · exact nl_entry h.1.nl
    · exact lines_nlA r ind h.2 x hx
  | .anchor k n v r, ind, h => by
    intro x hx
    rcases List.mem_cons.mp hx with rfl | hx
    · exact nl_entry h.2.2.1.nl
    · exact lines_nlA r ind h.2.2.2 x hx
  | .alias k n r, ind, h => by
    intro x hx
    rcases List.mem_cons.mp hx with rfl | hx
    · exact nl_entry h.2.1.nl
    · exact lines_nlA r ind h.2.2 x hx
  | .sub k a mg dd m r, ind, h => by
    intro x hx
    rcases List.mem_cons.mp hx with rfl | hx
    · cases a with
      | none =>
        have := h.1.nl
        simp only [ADoc.head, List.mem_append, not_or, List.mem_replicate]
        exact ⟨by simp, this, by simp⟩
      | some n => exact nl_entry (h.2.1 n rfl).2.nl
    · rcases List.mem_append.mp hx with hx | hx
      · cases mg with
        | none => simp [ADoc.mergeLine] at hx
        | some n =>
          have hn := h.2.2.1 n rfl
          simp only [ADoc.mergeLine, List.mem_singleton] at hx
          subst hx
          exact nl_entry (by simp only [List.mem_append, not_or]; exact ⟨by decide, by simp; exact hn.2.2.1⟩)
      · rcases List.mem_append.mp hx with hx | hx
        · exact lines_nlA m _ h.2.2.2.1 x hx
        · exact lines_nlA r ind h.2.2.2.2 x hx

theorem lines_neA {d : ADoc} (hn : d.isNil = false) (ind : Nat) : d.lines ind ≠ [] := by
  cases d with
  | nil => cases hn
  | _ => simp [ADoc.lines]

theorem size_le : ∀ (d : ADoc) (ind : Nat), d.size ≤ (d.lines ind).length
  | .nil, _ => Nat.le_refl _
  | .leaf k v r, ind => by have := size_le r ind; simp only [ADoc.size, ADoc.lines, List.length_cons]; omega
  | .anchor k n v r, ind => by have := size_le r ind; simp only [ADoc.size, ADoc.lines, List.length_cons]; omega
  | .alias k n r, ind => by have := size_le r ind; simp only [ADoc.size, ADoc.lines, List.length_cons]; omega
  | .sub k a mg dd m r, ind => by
    have h1 := size_le m (ind + dd + 1)
    have h2 := size_le r ind
    simp only [ADoc.size, ADoc.lines, List.length_cons, List.length_append]
    omega

/-- The first line finds the parser ready. -/
theorem turn_start {E : Env} {X : List Ptr} {h0 : Heap} {S : Ptr → Prop} {s : St} {ind : Nat} {r : Ptr} {below : List YNode} (a : Fine X h0 S s) (hp : Pos s ind (-1) r below) (hl : s.p.last < ind)
    (g : Good s.h (some r) (.obj false []) [r]) : Turn E X h0 S (fun _ => False) s ind (-1) r below (.obj false []) [r] [] [] [] true where
  fine := a
  pos := hp
  good := g
  holds := ⟨[], holds_nil E, rfl, by intro i kv c h; simp at h⟩
  zp := id
  used := fun _ h => h.elim
  anch := by intro n y h; simp at h
  empty := fun _ => rfl
  first := fun _ => hl

/-! ## C106 -/

/-- C106: a text with anchors, aliases and merges parses to the value it stands for: every alias is a copy of the anchored value, `<<: *n` brings its members.
The result is a tree (`Good`): no two places share memory. Partial: an anchor of a mapping only at the first entry of a mapping, `<<` only as the first line of a mapping, no `k:` with
a mapping for a member that came from a merge, no alias of a boolean; the counterexamples say what happens there. -/
theorem C106_new_partial {E : Env} (L : KeyLaws E) (N : NumLaw E) (pick : Heap → Option Nat) (f : Nat) {h : Heap} (I : Inv h) {p : Parser} (hp : FromPool p) (uc : Bool) {d : ADoc} {ind : Nat}
    (hd : d.Plain) (hn : d.isNil = false) {l : List (Bytes × YV)} {sc : Scope} (he : d.eval E true [] [] [] = some (l, sc)) {data : Bytes} (ht : TextOf (d.lines ind) data)
    (hf : (d.lines ind).length ≤ f) : ∃ r s x F, newValueFromYaml E pick f p h data uc = .ok (some r, s) ∧ Good s.h (some r) x F ∧ Is E (.map l) x := by
  obtain ⟨h1, h2, h3, h4⟩ := hp.empty
  have a := fine_start I hp uc
  have a' : Fine [] h (fun _ => False) { p := { p with useCache := uc, last := -1 }, h := h } := ⟨a.young, a.stack, a.uses, a.cache, a.root⟩
  obtain ⟨S, -, a1, -⟩ := newRoot_fine pick (t := .object) rfl (by decide) a'
  obtain ⟨r, hr, g⟩ := newRoot_holds E pick (s := { p := { p with useCache := uc, last := -1 }, h := h }) I
  have hpos : Pos (newRoot pick .object { p := { p with useCache := uc, last := -1 }, h := h }) ind (-1) r [] := ⟨by omega, Or.inl ⟨by rw [hr], by rw [hr]⟩⟩
  have hsz := size_le d ind
  obtain ⟨s', e', D⟩ := blockA L N pick f d ind (B := 0) (turn_start a1 hpos (by rw [hr]; dsimp only; omega) g) hd (by intro kv h; cases h) (by simp [YV.heights]) (by omega) he
  obtain ⟨x', F', l', Z', u, H, hI, -⟩ := D.res
  obtain ⟨ku, kvs, rfl⟩ := H.obj
  refine ⟨r, { s' with p := s'.p.reset }, .obj ku kvs, F', ?_, u.good, ku, kvs, rfl, by rw [H.mem]; exact H.unique, by rw [H.mem]; exact hI⟩
  unfold newValueFromYaml
  rw [parse_text E pick ht (lines_neA hn ind) (lines_nlA d ind hd) hf]
  rw [show ({ p := { ({ p with useCache := uc } : Parser) with last := -1 }, h := h } : St) = { p := { p with useCache := uc, last := -1 }, h := h } from rfl,
    root_firstA E pick f (s := { p := { p with useCache := uc, last := -1 }, h := h }) I h3 rfl ind d hd hn, e']
  have := D.root
  rw [hr] at this
  show Res.ok (s'.p.root, _) = _
  rw [this]

/-- C106 for `LoadFromYaml`. -/
theorem C106_load_partial {E : Env} (Lk : KeyLaws E) (N : NumLaw E) (pick : Heap → Option Nat) (f : Nat) {h : Heap} {L : Nat → Option Live} (W : WInv h L) {i : Nat} {x : Live} (hx : L i = some x)
    {p : Parser} (hp : FromPool p) {d : ADoc} (hd : d.Plain) (hn : d.isNil = false) {l : List (Bytes × YV)} {sc : Scope} (he : d.eval E true [] [] [] = some (l, sc)) {data : Bytes}
    (ht : TextOf (d.lines 0) data) (hf : (d.lines 0).length ≤ f) {c : UInt8} (hc : data.head? = some c) (hw : isWB c = false) (h45 : c ≠ 45) :
    ∃ s y F, loadFromYaml E pick f p h x.p data = .ok s ∧ Good s.h (some x.p) y F ∧ Is E (.map l) y := by
  obtain ⟨h1, h2, h3, h4⟩ := hp.empty
  have a := fine_load W hx hp (t := .object) (by decide)
  have hdw : data.dropWhile isWB = data := by
    cases data with
    | nil => rfl
    | cons b r => cases hc; simp [hw]
  have hh := (W.clear hx).1.held i _ (assign_same _ _ _)
  obtain ⟨v, g⟩ := hh.good
  have u := reset_upd g hh.ge .object
  have hsz := size_le d 0
  obtain ⟨s', e', D⟩ := blockA Lk N pick f d 0 (B := 0) (turn_start (s := { p := { p with useCache := false, root := some x.p, cache := ((Heap.reset (Heap.clear h x.p) x.p .object).mem x.p).owner, stack := ⟨false, -1, x.p⟩ :: p.stack, last := -1 }, h := Heap.reset (Heap.clear h x.p) x.p .object })
    (r := x.p) (below := []) ⟨a.young, a.stack, a.uses, a.cache, a.root⟩ ⟨by omega, Or.inl ⟨by simp [h3], rfl⟩⟩ (by dsimp only; omega) u.good) hd (by intro kv h; cases h) (by simp [YV.heights]) (by omega) he
  obtain ⟨x', F', l', Z', u, H, hI, -⟩ := D.res
  obtain ⟨ku, kvs, rfl⟩ := H.obj
  refine ⟨{ s' with p := s'.p.reset }, .obj ku kvs, F', ?_, u.good, ku, kvs, rfl, by rw [H.mem]; exact H.unique, by rw [H.mem]; exact hI⟩
  unfold loadFromYaml
  dsimp only
  rw [hdw, hc]
  dsimp only
  rw [if_neg h45, parse_text E pick ht (lines_neA hn 0) (lines_nlA d 0 hd) hf]
  show (runLines E pick f (d.lines 0) _ >>= _) = _
  rw [e']
  rfl

/-! ### Examples -/

theorem numLaw_envEx : NumLaw envEx := fun _ _ => rfl

/-- [97] text with an anchor of a mapping, an anchor of a scalar, aliases of both, and a merge with a member of its own. -/
def aliasEx : ADoc :=
  .sub [97] (some [110]) none 1 (.leaf [120] [118] (.anchor [121] [109] [119] .nil)) (.alias [98] [110] (.alias [99] [109] (.sub [100] none (some [110]) 1 (.leaf [120] [117] (.leaf [122] [118] .nil)) .nil)))

example : text (aliasEx.lines 0) = (text [[97, 58, 32, 38, 110], [32, 32, 120, 58, 32, 118], [32, 32, 121, 58, 32, 38, 109, 32, 119], [98, 58, 32, 42, 110], [99, 58, 32, 42, 109], [100, 58], [32, 32, 60, 60, 58, 32, 42, 110], [32, 32, 120, 58, 32, 117], [32, 32, 122, 58, 32, 118]]) := by decide +kernel

example : aliasEx.eval envEx true [] [] [] = some ([([97], .map [([120], .leaf [118]), ([121], .leaf [119])]), ([98], .map [([120], .leaf [118]), ([121], .leaf [119])]), ([99], .leaf [119]), ([100], .map [([120], .leaf [117]), ([121], .leaf [119]), ([122], .leaf [118])])],
    [([110], .map [([120], .leaf [118]), ([121], .leaf [119])]), ([109], .leaf [119])]) := by rfl

theorem aliasEx_plain : aliasEx.Plain := by
  have pl : ∀ k v : UInt8, k ∈ [97, 98, 99, 100, 120, 121, 122] → v ∈ [117, 118, 119] → PlainLine [k] [v] := by
    intro k v hk hv
    simp only [List.mem_cons, List.not_mem_nil, or_false] at hk hv
    rcases hk with rfl | rfl | rfl | rfl | rfl | rfl | rfl <;> rcases hv with rfl | rfl | rfl <;>
      exact ⟨neat_of rfl rfl rfl rfl, neat_of rfl rfl rfl rfl, by decide, by decide, by decide, by decide, by decide, by decide⟩
  have nm : ∀ n : UInt8, n ∈ [110, 109] → AName [n] := by
    intro n hn
    simp only [List.mem_cons, List.not_mem_nil, or_false] at hn
    rcases hn with rfl | rfl <;> exact ⟨by decide, by decide, by decide, by decide⟩
  have pk : ∀ k : UInt8, k ∈ [97, 98, 99, 100, 120, 121, 122] → PlainKey [k] := by
    intro k hk
    simp only [List.mem_cons, List.not_mem_nil, or_false] at hk
    rcases hk with rfl | rfl | rfl | rfl | rfl | rfl | rfl <;> exact ⟨neat_of rfl rfl rfl rfl, by decide, by decide, by decide, by decide, by decide⟩
  have en : ∀ v : Bytes, v = 38 :: [110] ∨ v = 42 :: [110] ∨ v = 42 :: [109] ∨ v = 38 :: ([109] ++ 32 :: [119]) → ∀ k : UInt8, k ∈ [97, 98, 99, 100, 120, 121, 122] → EntryLine [k] v := by
    intro v hv k hk
    simp only [List.mem_cons, List.not_mem_nil, or_false] at hk
    rcases hk with rfl | rfl | rfl | rfl | rfl | rfl | rfl <;> rcases hv with rfl | rfl | rfl | rfl <;>
      exact ⟨neat_of rfl rfl rfl rfl, neat_of rfl rfl rfl rfl, by decide, by decide, by decide, by decide, by decide⟩
  refine ⟨pk _ (by decide), ?_, by simp, ⟨pl _ _ (by decide) (by decide), pl _ _ (by decide) (by decide), nm _ (by decide), en _ (by simp) _ (by decide), trivial⟩, nm _ (by decide), en _ (by simp) _ (by decide), nm _ (by decide),
    en _ (by simp) _ (by decide), pk _ (by decide), by simp, ?_, ⟨pl _ _ (by decide) (by decide), pl _ _ (by decide) (by decide), trivial⟩, trivial⟩
  · rintro n hn
    cases hn
    exact ⟨nm _ (by decide), en _ (by simp) _ (by decide)⟩
  · rintro n hn
    cases hn
    exact nm _ (by decide)

example : ∃ r s x F, newValueFromYaml envEx (fun _ => none) 20 .fresh (Heap.init id) (text (aliasEx.lines 0)) true = .ok (some r, s) ∧ Good s.h (some r) x F ∧
    Is envEx (.map [([97], .map [([120], .leaf [118]), ([121], .leaf [119])]), ([98], .map [([120], .leaf [118]), ([121], .leaf [119])]), ([99], .leaf [119]), ([100], .map [([120], .leaf [117]), ([121], .leaf [119]), ([122], .leaf [118])])]) x :=
  C106_new_partial (E := envEx) (envEx_keyLaws envEx.ignoreCase) numLaw_envEx (fun _ => none) 20 (inv_init id) .fresh true (ind := 0) aliasEx_plain rfl rfl (Or.inl rfl) (by decide)

/-- The same by running it. -/
example : yaml (text (aliasEx.lines 0)) = .ok (.obj false [([97], .obj false [([120], .str [118]), ([121], .str [119])]), ([98], .obj false [([120], .str [118]), ([121], .str [119])]), ([99], .str [119]),
    ([100], .obj false [([120], .str [117]), ([121], .str [119]), ([122], .str [118])])]) := by rfl

/-! ### Counterexamples -/

/-- An anchor of a mapping that is not at the first entry is lost. -/
theorem C106_block_anchor_counterexample : yaml (text [[120, 58, 32, 121], [97, 58, 32, 38, 110], [32, 32, 99, 58, 32, 122], [98, 58, 32, 42, 110]]) = .ok (.obj false [([120], .str [121]), ([97], .obj false [([99], .str [122])]), ([98], .str [42, 110])]) := by rfl

/-- An alias without an anchor is no error; the name stays, as a string. -/
theorem C106_unknown_counterexample : yaml (text [[98, 58, 32, 42, 110]]) = .ok (.obj false [([98], .str [42, 110])]) ∧ yaml (text [[60, 60, 58, 32, 42, 110]]) = .ok (.obj false [([60, 60], .str [42, 110])]) := ⟨by rfl, by rfl⟩

/-- `<<` behind the entries: the merged members are behind them, with the same names. -/
theorem C106_late_merge_counterexample : yaml (text [[97, 58, 32, 38, 110], [32, 32, 120, 58, 32, 121], [98, 58], [32, 32, 120, 58, 32, 122], [32, 32, 60, 60, 58, 32, 42, 110]]) = .ok (.obj false [([97], .obj false [([120], .str [121])]), ([98], .obj false [([120], .str [122]), ([120], .str [121])])]) := by rfl

/-- [97] mapping given for a member that was merged is mixed with it. -/
theorem C106_deep_merge_counterexample : yaml (text [[97, 58, 32, 38, 110], [32, 32, 120, 58], [32, 32, 32, 32, 121, 58, 32, 122], [98, 58], [32, 32, 60, 60, 58, 32, 42, 110], [32, 32, 120, 58], [32, 32, 32, 32, 99, 58, 32, 100]]) = .ok (.obj false [([97], .obj false [([120], .obj false [([121], .str [122])])]), ([98], .obj false [([120], .obj false [([121], .str [122]), ([99], .str [100])])])]) := by rfl

/-- `a: &n true`, `b:`, `  c: *n`: the members `a` and `b.c` are one node. -/
theorem C106_bool_counterexample :
    ((newValueFromYaml envEx (fun _ => none) 20 .fresh (Heap.init id) (text [[97, 58, 32, 38, 110, 32, 116, 114, 117, 101], [98, 58], [32, 32, 99, 58, 32, 42, 110]]) true).bind (fun x => .ok (x.1.bind (fun r => (Node.kids (x.2.h.mem r))[0]?) ==
      x.1.bind (fun r => (Node.kids (x.2.h.mem r))[1]?.bind (fun b => b.bind (fun b => (Node.kids (x.2.h.mem b))[0]?)))))) = .ok true ∧
    yaml (text [[97, 58, 32, 38, 110, 32, 116, 114, 117, 101], [98, 58], [32, 32, 99, 58, 32, 42, 110]]) = .ok (.obj false [([97], .tru), ([98], .obj false [([99], .tru)])]) := ⟨by rfl, by rfl⟩

end Dxs.Yaml
