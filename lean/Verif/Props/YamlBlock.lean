import Verif.Yaml.Block
import Verif.Props.YamlMap

/-!
# C100 to C102: YAML mappings and lists, nested; scalars
-/

namespace Dxs.Yaml

open Dxs.Heap

/-! ## The root -/

theorem newRoot_array (pick : Heap → Option Nat) {s : St} (I : Inv s.h) :
    ∃ r, (newRoot pick .array s).p = { s.p with cache := (newRoot pick .array s).p.cache, root := some r, stack := [⟨false, -1, r⟩] } ∧
      Good (newRoot pick .array s).h (some r) (.arr []) [r] := by
  have hI := I.getCache (pick s.h)
  have e : newCacheValue s.h .array (pick s.h) = Heap.getValue (Heap.getCache s.h (pick s.h)).2 (some (Heap.getCache s.h (pick s.h)).1) .array := rfl
  unfold newRoot
  rw [e]
  generalize Heap.getCache s.h (pick s.h) = x at hI ⊢
  obtain ⟨c, h1⟩ := x
  simp only at hI ⊢
  have A := getValue_spec hI.1 (some c) .array (fun d hd => by cases hd; exact hI.2)
  generalize Heap.getValue h1 (some c) .array = x at A ⊢
  obtain ⟨r, h2⟩ := x
  simp only at A ⊢
  split <;> exact ⟨r, rfl, A.good⟩

/-- The first item makes the root. -/
theorem parseLine_firstItem (E : Env) (pick : Heap → Option Nat) (f : Nat) {s : St} (I : Inv s.h) (h1 : s.p.stack = []) (h2 : s.p.last = -1) (ind : Nat) {text body : Bytes}
    (hc : text.head? = some 45) (hcut : cutComment text = body) (hb : body.drop 1 = [] ∨ (body.drop 1).head? = some 32) :
    parseLine E pick f (List.replicate ind 32 ++ text) ind s = parseLine E pick f (List.replicate ind 32 ++ text) ind (newRoot pick .array s) := by
  obtain ⟨r, hr, -⟩ := newRoot_array pick I
  have hat : At (newRoot pick .array s) ind ⟨false, -1, r⟩ [] := Or.inl ⟨by simp; omega, by rw [hr], by unfold eff; rw [hr]; simp [h2]; omega⟩
  rw [parseLine_pop hat hc (by decide) hcut, if_pos rfl]
  unfold parseLine
  have hd : (List.replicate ind 32 ++ text).drop ind = text := by
    rw [List.drop_append_of_le_length (by simp)]; simp
  rw [hd]
  obtain ⟨⟨first, useCache, last, root, cache, stack, uses⟩, h⟩ := s
  simp only at h1 h2
  subst h1 h2
  simp only [hc, if_neg (show ¬(45 : UInt8) = 35 by decide), if_true, hcut, List.head?_nil, Option.map_none, reduceCtorEq, and_false, if_false]
  rw [if_neg (by omega)]
  have : (newRoot pick .array ⟨⟨first, useCache, -1, root, cache, [], uses⟩, h⟩).p.stack = [⟨false, -1, r⟩] := by rw [hr]
  have hback : ({ p := { (newRoot pick .array ⟨⟨first, useCache, -1, root, cache, [], uses⟩, h⟩).p with stack := [⟨false, -1, r⟩] }, h := (newRoot pick .array ⟨⟨first, useCache, -1, root, cache, [], uses⟩, h⟩).h } : St) =
      newRoot pick .array ⟨⟨first, useCache, -1, root, cache, [], uses⟩, h⟩ := by
    generalize newRoot pick .array ⟨⟨first, useCache, -1, root, cache, [], uses⟩, h⟩ = t at this ⊢
    obtain ⟨⟨_, _, _, _, _, _, _⟩, _⟩ := t
    simp only at this
    rw [this]
  rw [hback]
  show (parseArray E pick f (body.drop 1) ind _ >>= _) = _
  congr 1
  have hn : ∀ q : Int, ¬(body.drop 1 ≠ [] ∧ (body.drop 1).head? ≠ some 32 ∧ (ind : Int) ≤ q) := by
    rintro q ⟨h1, h2, -⟩
    rcases hb with h | h
    · exact h1 h
    · exact h2 h
  unfold parseArray
  rw [if_neg (hn _), if_neg (hn _)]
  simp only [if_true, this, List.cons_ne_nil, if_false]

/-- The kind of the root. -/
def YB.kind : YB → VT
  | .skip _ r => r.kind
  | .nil | .leaf .. | .sub .. => .object
  | _ => .array

theorem first_line (E : Env) (pick : Heap → Option Nat) (f : Nat) {s : St} (I : Inv s.h) (h1 : s.p.stack = []) (h2 : s.p.last = -1) (ind : Nat) : ∀ (d : YB), d.Plain ind → d.full = true →
    runLines E pick f (d.lines ind) s = runLines E pick f (d.lines ind) (newRoot pick d.kind s)
  | .nil, _, h => by cases h
  | .skip l r, hp, h => by
    rw [YB.lines, runLines_skip _ _ _ hp.1, runLines_skip _ _ _ hp.1]
    exact first_line E pick f I h1 h2 ind r hp.2 h
  | .leaf k v cmt r, hp, _ => by
    obtain ⟨c, hc1, hc2, h35, h45⟩ := entry_head hp.1.key hp.1.khead ([58, 32] ++ v ++ cmt)
    have hl : 1 < (k ++ [58, 32] ++ v).length := by simp; omega
    rw [YB.lines, runLines_entry _ _ _ (by simpa using hc1) hc2 (by simp; omega), runLines_entry _ _ _ (by simpa using hc1) hc2 (by simp; omega),
      parseLine_first E pick f I h1 h2 ind (by simpa using hc1) h35 h45 (cut_cmt hp.1.comment hl hp.2.1) (splitKv_plain hp.1) (neat_ne hp.1.key)]
    rfl
  | .sub k cmt n m r, hp, _ => by
    obtain ⟨c, hc1, hc2, h35, h45⟩ := entry_head hp.1.1.key hp.1.1.khead ([58] ++ cmt)
    have hl : 0 < k.length := List.length_pos_iff.mpr (neat_ne hp.1.1.key)
    rw [YB.lines, runLines_entry _ _ _ (by simpa using hc1) hc2 (by simp; omega), runLines_entry _ _ _ (by simpa using hc1) hc2 (by simp; omega),
      parseLine_first E pick f I h1 h2 ind (by simpa using hc1) h35 h45 (cut_cmt (hash_key hp.1.1.comment) (by simp; omega) hp.1.2.1) (splitKv_key hp.1.1) (neat_ne hp.1.1.key)]
    rfl
  | .item v cmt r, hp, _ => by
    rw [YB.lines, runLines_entry _ _ _ (c := 45) rfl (by decide) (by simp), runLines_entry _ _ _ (c := 45) rfl (by decide) (by simp),
      parseLine_firstItem E pick f I h1 h2 ind rfl (cut_cmt hp.1.comment (by simp) hp.2.1) (Or.inr rfl)]
    rfl
  | .nest j n b r, hp, _ => by
    have hl := hp.1.1
    have hh : ¬[32, 35] <:+: (45 :: List.replicate j (32 : UInt8)) := by
      intro h
      have : (35 : UInt8) ∈ (45 :: List.replicate j (32 : UInt8)) := h.subset (by simp)
      simp at this
    have hcut : cutComment (45 :: List.replicate j (32 : UInt8)) = 45 :: List.replicate j 32 := by
      unfold cutComment; rw [hashIdx_none hh]
    rw [YB.lines, runLines, runLines, if_neg (by simp; omega), if_neg (by simp; omega), indent (c := 45) rfl (by decide),
      parseLine_firstItem E pick f I h1 h2 ind rfl hcut (by cases j with | zero => exact Or.inl rfl | succ j => exact Or.inr rfl)]
    rfl
  | .entry k v cmt m r, hp, _ => by
    have hcomm : ¬[32, 35] <:+: [45, 32] ++ (k ++ [58, 32] ++ v) := hash_dash hp.1.1.comment (by
      obtain ⟨c, h1, -, h35, -⟩ := entry_head hp.1.1.key hp.1.1.khead ([58, 32] ++ v)
      rw [List.append_assoc, h1]; simpa using h35)
    rw [YB.lines, runLines_entry _ _ _ (c := 45) rfl (by decide) (by simp), runLines_entry _ _ _ (c := 45) rfl (by decide) (by simp),
      parseLine_firstItem E pick f I h1 h2 ind rfl (cut_cmt hcomm (by simp) hp.1.2.1) (Or.inr rfl)]
    rfl
  | .entrySub k cmt n b m r, hp, _ => by
    have hcomm : ¬[32, 35] <:+: [45, 32] ++ (k ++ [58]) := hash_dash (hash_key hp.1.1.comment) (by
      obtain ⟨c, h1, -, h35, -⟩ := entry_head hp.1.1.key hp.1.1.khead [58]
      rw [h1]; simpa using h35)
    rw [YB.lines, runLines_entry _ _ _ (c := 45) rfl (by decide) (by simp), runLines_entry _ _ _ (c := 45) rfl (by decide) (by simp),
      parseLine_firstItem E pick f I h1 h2 ind rfl (cut_cmt hcomm (by simp) hp.1.2.1) (Or.inr rfl)]
    rfl

theorem block_nl : ∀ (d : YB) (ind : Nat), d.Plain ind → ∀ l ∈ d.lines ind, 10 ∉ l := by
  have cm : ∀ {c : Bytes}, Cmt c → 10 ∉ c := by rintro c (rfl | ⟨t, rfl, ht⟩) <;> simp_all
  intro d
  induction d with
  | nil => intro ind _; simp [YB.lines]
  | skip l r ih =>
    intro ind h x hx
    rcases List.mem_cons.mp hx with rfl | hx
    · exact h.1.1
    · exact ih ind h.2 x hx
  | leaf k v cmt r ih =>
    intro ind h x hx
    rcases List.mem_cons.mp hx with rfl | hx
    · have h1 := h.1.nl
      have h2 := cm h.2.1
      simp only [List.mem_append, not_or, List.mem_replicate] at h1 ⊢
      exact ⟨by simp, ⟨⟨h1.1, by simp⟩, h1.2⟩, h2⟩
    · exact ih ind h.2.2 x hx
  | sub k cmt n m r ihm ih =>
    intro ind h x hx
    rcases List.mem_cons.mp hx with rfl | hx
    · have h1 := h.1.1.nl
      have h2 := cm h.1.2.1
      simp only [List.mem_append, not_or, List.mem_replicate]
      exact ⟨by simp, ⟨h1, by simp⟩, h2⟩
    · rcases List.mem_append.mp hx with hx | hx
      · exact ihm _ h.2.1 x hx
      · exact ih ind h.2.2 x hx
  | item v cmt r ih =>
    intro ind h x hx
    rcases List.mem_cons.mp hx with rfl | hx
    · have h1 := h.1.nl
      have h2 := cm h.2.1
      simp only [List.mem_append, not_or, List.mem_replicate]
      exact ⟨by simp, ⟨by simp, h1⟩, h2⟩
    · exact ih ind h.2.2 x hx
  | nest j n b r ihb ih =>
    intro ind h x hx
    rcases List.mem_cons.mp hx with rfl | hx
    · simp
    · rcases List.mem_append.mp hx with hx | hx
      · exact ihb _ h.2.1 x hx
      · exact ih ind h.2.2 x hx
  | entry k v cmt m r ihm ih =>
    intro ind h x hx
    rcases List.mem_cons.mp hx with rfl | hx
    · have h1 := h.1.1.nl
      have h2 := cm h.1.2.1
      simp only [List.mem_append, not_or, List.mem_replicate] at h1 ⊢
      exact ⟨by simp, ⟨by simp, ⟨h1.1, by simp⟩, h1.2⟩, h2⟩
    · rcases List.mem_append.mp hx with hx | hx
      · exact ihm _ h.2.1 x hx
      · exact ih ind h.2.2 x hx
  | entrySub k cmt n b m r ihb ihm ih =>
    intro ind h x hx
    rcases List.mem_cons.mp hx with rfl | hx
    · have h1 := h.1.1.nl
      have h2 := cm h.1.2.1
      simp only [List.mem_append, not_or, List.mem_replicate]
      exact ⟨by simp, ⟨by simp, h1, by simp⟩, h2⟩
    · rcases List.mem_append.mp hx with hx | hx
      · exact ihb _ h.2.1 x hx
      · rcases List.mem_append.mp hx with hx | hx
        · exact ihm _ h.2.2.1 x hx
        · exact ih ind h.2.2.2 x hx

theorem block_ne : ∀ (d : YB) (ind : Nat), d.full = true → d.lines ind ≠ []
  | .nil, _, h => by cases h
  | .skip .., _, _ | .leaf .., _, _ | .sub .., _, _ | .item .., _, _ | .nest .., _, _ | .entry .., _, _ | .entrySub .., _, _ => by simp [YB.lines]

theorem deep_full : ∀ d : YB, d.deep = true → d.full = true
  | .skip _ r, h => deep_full r h
  | .item .., _ | .nest .., _ | .entrySub .., _ | .entry .., _ => rfl
  | .nil, h | .leaf .., h | .sub .., h => by cases h

theorem deep_not_map : ∀ d : YB, d.deep = true → d.isMap = false
  | .skip _ r, h => deep_not_map r h
  | .item .., _ | .nest .., _ | .entrySub .., _ | .entry .., _ => rfl
  | .nil, h | .leaf .., h | .sub .., h => by cases h

theorem kind_map : ∀ (d : YB), d.isMap = true → d.kind = .object
  | .nil, _ | .leaf .., _ | .sub .., _ => rfl
  | .skip _ r, h => kind_map r h
  | .item .., h | .nest .., h | .entry .., h | .entrySub .., h => by cases h

theorem kind_list : ∀ (d : YB), d.isList = true → d.full = true → d.kind = .array
  | .nil, _, h => by cases h
  | .item .., _, _ | .nest .., _, _ | .entry .., _, _ | .entrySub .., _, _ => rfl
  | .skip _ r, h, h' => kind_list r h h'
  | .leaf .., h, _ | .sub .., h, _ => by cases h

/-- The state in which the first line finds the parser, for `NewValueFromYaml`: the root is there, and empty. -/
theorem block_start (E : Env) (pick : Heap → Option Nat) (f : Nat) {h : Heap} (I : Inv h) {p : Parser} (hp : FromPool p) (uc : Bool) {d : YB} {ind : Nat} (hm : d.Plain ind) (hn : d.full = true)
    (hk : d.isMap = true ∨ d.isList = true) {more : List Bytes} (hmore : ∀ l ∈ more, 10 ∉ l) {data : Bytes} (ht : TextOf (d.lines ind ++ more) data) (hf : (d.lines ind ++ more).length ≤ f) :
    ∃ s S r x, newValueFromYaml E pick f p h data uc = (runLines E pick f (d.lines ind ++ more) s).bind (fun s => .ok (s.p.root, { s with p := s.p.reset })) ∧
      Fine [] h S s ∧ At s ind ⟨false, -1, r⟩ [] ∧ s.p.root = some r ∧ Good s.h (some r) x [r] ∧ (d.isMap = true → x = .obj false []) ∧ (d.isMap = false → x = .arr []) := by
  obtain ⟨h1, h2, h3, h4⟩ := hp.empty
  have a := fine_start I hp uc
  have a' : Fine [] h (fun _ => False) { p := { p with useCache := uc, last := -1 }, h := h } := ⟨a.young, a.stack, a.uses, a.cache, a.root⟩
  have hlines : newValueFromYaml E pick f p h data uc = (runLines E pick f (d.lines ind ++ more) (newRoot pick d.kind { p := { p with useCache := uc, last := -1 }, h := h })).bind (fun s => .ok (s.p.root, { s with p := s.p.reset })) := by
    unfold newValueFromYaml
    rw [parse_text E pick ht (by simp [block_ne d ind hn]) (by
        intro l hl
        rcases List.mem_append.mp hl with hl | hl
        · exact block_nl d ind hm l hl
        · exact hmore l hl) hf, runLines_append, runLines_append,
      ← first_line E pick f (s := { p := { p with useCache := uc, last := -1 }, h := h }) I h3 rfl ind d hm hn]
    rfl
  by_cases hmap : d.isMap = true
  · rw [kind_map d hmap] at hlines
    obtain ⟨S, -, a1, -⟩ := newRoot_fine pick (t := .object) rfl (by decide) a'
    obtain ⟨r, hr, g⟩ := newRoot_holds E pick (s := { p := { p with useCache := uc, last := -1 }, h := h }) I
    exact ⟨_, S, r, _, hlines, a1, Or.inl ⟨by simp; omega, by rw [hr], by unfold eff; rw [hr]; simp; omega⟩, by rw [hr], g, fun _ => rfl, fun h => by rw [hmap] at h; cases h⟩
  · have hl := hk.resolve_left hmap
    rw [kind_list d hl hn] at hlines
    obtain ⟨S, -, a1, -⟩ := newRoot_fine pick (t := .array) rfl (by decide) a'
    obtain ⟨r, hr, g⟩ := newRoot_array pick (s := { p := { p with useCache := uc, last := -1 }, h := h }) I
    exact ⟨_, S, r, _, hlines, a1, Or.inl ⟨by simp; omega, by rw [hr], by unfold eff; rw [hr]; simp; omega⟩, by rw [hr], g, fun h => absurd h hmap, fun _ => rfl⟩

/-- The value under `r` in the memory `h` is what the block stands for. -/
def IsValue (E : Env) (h : Heap) (r : Ptr) (d : YB) : Prop := ∃ v F, Good h (some r) v F ∧ IsBlock E v d

/-- The whole block, from a root that is empty. -/
theorem block_root {E : Env} (L : KeyLaws E) (pick : Heap → Option Nat) (f : Nat) {X : List Ptr} {h0 : Heap} {S : Ptr → Prop} {s : St} {r : Ptr} {x : Val} {F : List Ptr} {d : YB} {ind : Nat}
    (a : Fine X h0 S s) (hat : At s ind ⟨false, -1, r⟩ []) (g : Good s.h (some r) x F) (hm : d.Plain ind) (hd : d.Different E) (hn : d.full = true) (hk : d.isMap = true ∨ d.isList = true)
    (hmap : d.isMap = true → x = .obj false []) (hlist : d.isMap = false → x = .arr []) :
    ∃ s', runLines E pick f (d.lines ind) s = .ok s' ∧ Next X h0 S s' ∧ In s' ind ⟨false, -1, r⟩ [] ∧ s'.p.root = s.p.root ∧ IsValue E s'.h r d := by
  have ih := blocks L pick f d ind a hat g hm hd
  by_cases hb : d.isMap = true
  · obtain ⟨s', x', l, e, D⟩ := ih.1 hb [] (Or.inl (by rw [hmap hb]; exact holds_nil E)) (by simp)
    have H := D.holds hn
    obtain ⟨ku, kvs, rfl⟩ := H.obj
    obtain ⟨F', u⟩ := D.upd
    exact ⟨s', e, D.next, D.inn (Or.inr hn), D.root, _, F', u.good, .map hb (by rw [H.mem]; simpa using D.fits)⟩
  · have hl := hk.resolve_left hb
    obtain ⟨s', x', l, e, D⟩ := ih.2 hl [] (Or.inl (hlist (by simpa using hb)))
    have H := D.holds hn
    subst H
    obtain ⟨F', u⟩ := D.upd
    exact ⟨s', e, D.next, D.inn (Or.inr hn), D.root, _, F', u.good, .list hl (by simpa using D.fits)⟩

/-! ## C100 -/

/-- C100: a text of mappings and lists, nested in each other, parses to the value it stands for. Partial: see `YB.Plain`; the counterexamples below are texts outside of it. -/
theorem C100_partial {E : Env} (L : KeyLaws E) (pick : Heap → Option Nat) (f : Nat) {h : Heap} (I : Inv h) {p : Parser} (hp : FromPool p) (uc : Bool) {d : YB} {ind : Nat} (hm : d.Plain ind)
    (hd : d.Different E) (hn : d.full = true) (hk : d.isMap = true ∨ d.isList = true) {data : Bytes} (ht : TextOf (d.lines ind) data) (hf : (d.lines ind).length ≤ f) :
    ∃ r s, newValueFromYaml E pick f p h data uc = .ok (some r, s) ∧ IsValue E s.h r d := by
  obtain ⟨s, S, r, x, e, a, hat, hr, g, h1, h2⟩ := block_start E pick f I hp uc hm hn hk (more := []) (by simp) (by simpa using ht) (by simpa using hf)
  obtain ⟨s', e', -, -, hr', V⟩ := block_root L pick f a hat g hm hd hn hk h1 h2
  refine ⟨r, { s' with p := s'.p.reset }, ?_, V⟩
  rw [e, List.append_nil, e', ← hr, ← hr']
  rfl

/-- C100 for `LoadFromYaml`. -/
theorem C100_load_partial {E : Env} (K : KeyLaws E) (pick : Heap → Option Nat) (f : Nat) {h : Heap} {L : Nat → Option Live} (W : WInv h L) {i : Nat} {x : Live} (hx : L i = some x)
    {p : Parser} (hp : FromPool p) {d : YB} (hm : d.Plain 0) (hd : d.Different E) (hn : d.full = true) (hk : d.isMap = true ∨ d.isList = true) {data : Bytes} (ht : TextOf (d.lines 0) data)
    (hf : (d.lines 0).length ≤ f) {c : UInt8} (hc : data.head? = some c) (hw : isWB c = false) (h45 : c = 45 ↔ d.isMap = false) :
    ∃ s, loadFromYaml E pick f p h x.p data = .ok s ∧ IsValue E s.h x.p d := by
  obtain ⟨h1, h2, h3, h4⟩ := hp.empty
  have hb : (if c = 45 then VT.array else .object) ≠ .binary := by split <;> decide
  have a := fine_load W hx hp (t := if c = 45 then .array else .object) hb
  have hdr : data.dropWhile isWB = data := by
    cases data with
    | nil => rfl
    | cons b r => cases hc; simp [hw]
  have hh := (W.clear hx).1.held i _ (assign_same _ _ _)
  obtain ⟨v, g⟩ := hh.good
  have u := reset_upd g hh.ge (if c = 45 then VT.array else .object)
  obtain ⟨s', e', -, -, -, V⟩ := block_root (s := { p := { p with useCache := false, root := some x.p, cache := ((Heap.reset (Heap.clear h x.p) x.p (if c = 45 then .array else .object)).mem x.p).owner, stack := ⟨false, -1, x.p⟩ :: p.stack, last := -1 }, h := Heap.reset (Heap.clear h x.p) x.p (if c = 45 then .array else .object) })
    K pick f ⟨a.young, a.stack, a.uses, a.cache, a.root⟩ (Or.inl ⟨by simp, by simp [h3], by unfold eff; simp⟩) u.good hm hd hn hk
    (by intro hb; rw [if_neg (by rw [h45, hb]; simp)]; rfl) (by intro hb; rw [if_pos (h45.mpr hb)]; rfl)
  refine ⟨{ s' with p := s'.p.reset }, ?_, V⟩
  unfold loadFromYaml
  dsimp only
  rw [hdr, hc]
  dsimp only
  rw [parse_text E pick ht (block_ne d 0 hn) (block_nl d 0 hm) hf]
  show (runLines E pick f (d.lines 0) _ >>= _) = _
  rw [e']
  rfl

/-! ### A text with everything in it -/

/-- `a:`, `  - x # c`, `  - k: v`, `    l: w`, `  -`, `    - y:z`, `b:`, `  - c:`, `      d: t`, `    e: u`, `  - f:`, `      g:`, `        h: s`. -/
def blockEx : YB :=
  .sub [97] [] 1 (.item [120] [32, 35, 99] (.entry [107] [118] [] (.leaf [108] [119] [] .nil) (.nest 0 1 (.item [121, 58, 122] [] .nil) .nil)))
    (.sub [98] [] 1 (.entrySub [99] [] 1 (.leaf [100] [116] [] .nil) (.leaf [101] [117] [] .nil)
      (.entrySub [102] [] 1 (.sub [103] [] 1 (.leaf [104] [115] [] .nil) .nil) .nil .nil)) .nil)

example : blockEx.Plain 0 ∧ blockEx.full = true ∧ blockEx.isMap = true := by
  refine ⟨?_, rfl, rfl⟩
  simp only [blockEx, YB.Plain]
  refine ⟨⟨⟨?_, ?_, ?_, ?_, ?_, ?_⟩, Or.inl rfl, rfl, Or.inr rfl⟩, ⟨⟨?_, ?_, ?_, ?_, ?_, ?_⟩, Or.inr ⟨[99], rfl, by decide⟩, ⟨⟨?_, ?_, ?_, ?_, ?_, ?_, ?_, ?_⟩, Or.inl rfl, rfl⟩,
      ⟨⟨?_, ?_, ?_, ?_, ?_, ?_, ?_, ?_⟩, Or.inl rfl, trivial⟩, ⟨by decide, rfl, Or.inr rfl⟩, ⟨⟨?_, ?_, ?_, ?_, ?_, ?_⟩, Or.inl rfl, trivial⟩, trivial⟩,
    ⟨⟨?_, ?_, ?_, ?_, ?_, ?_⟩, Or.inl rfl, rfl, Or.inr rfl⟩, ⟨⟨⟨?_, ?_, ?_, ?_, ?_, ?_⟩, Or.inl rfl, rfl, rfl, rfl, Or.inl rfl⟩, ⟨⟨?_, ?_, ?_, ?_, ?_, ?_, ?_, ?_⟩, Or.inl rfl, trivial⟩,
      ⟨⟨?_, ?_, ?_, ?_, ?_, ?_, ?_, ?_⟩, Or.inl rfl, trivial⟩, ⟨⟨?_, ?_, ?_, ?_, ?_, ?_⟩, Or.inl rfl, rfl, rfl, rfl, Or.inr rfl⟩,
      ⟨⟨⟨?_, ?_, ?_, ?_, ?_, ?_⟩, Or.inl rfl, rfl, Or.inl rfl⟩, ⟨⟨?_, ?_, ?_, ?_, ?_, ?_, ?_, ?_⟩, Or.inl rfl, trivial⟩, trivial⟩, trivial, trivial⟩, trivial⟩
  all_goals first | exact neat_of rfl rfl rfl rfl | decide

example : blockEx.Different envEx := by
  simp [blockEx, YB.Different, YB.names, Env.keyMatch, envEx]

/-- What a value looks like from outside: six levels; the flag of decoded names is left out. -/
def peek : Nat → Heap → Option Ptr → Val
  | 0, _, _ => .nil
  | _, _, none => .nil
  | f + 1, h, some p =>
    match (h.mem p).dt with
    | .object => .obj false ((h.mem p).kvs.map (fun kv => (kv.1, peek f h kv.2)))
    | .array => .arr ((h.mem p).arr.map (peek f h))
    | .string => .str (h.mem p).str
    | .null => .null
    | .true => .tru
    | .false => .fls
    | _ => .nil

/-- The result of `NewValueFromYaml` on a text, as `peek` shows it. -/
def yaml (data : Bytes) : Res Val :=
  (newValueFromYaml envEx (fun _ => none) 20 .fresh (Heap.init id) data true).bind (fun x => .ok (peek 6 x.2.h x.1))

/-- The lines with a newline behind each. -/
def text (ls : List Bytes) : Bytes := (ls.map (· ++ [10])).flatten

example : yaml (text (blockEx.lines 0)) = .ok (.obj false
    [([97], .arr [.str [120], .obj false [([107], .str [118]), ([108], .str [119])], .arr [.str [121, 58, 122]]]),
     ([98], .arr [.obj false [([99], .obj false [([100], .str [116])]), ([101], .str [117])], .obj false [([102], .obj false [([103], .obj false [([104], .str [115])])])]])]) := by
  rfl

/-! ### Counterexamples -/

/-- A list at the indentation of its key, as most YAML texts have it: all that was read before is dropped, the result is the list. -/
theorem C100_same_indent_counterexample {E : Env} (L : KeyLaws E) (pick : Heap → Option Nat) (f : Nat) {h : Heap} (I : Inv h) {p : Parser} (hp : FromPool p) (uc : Bool) {m d : YB} {ind : Nat}
    (hm : m.Plain ind) (hmd : m.Different E) (hmf : m.full = true) (hmm : m.isMap = true) (hd : d.Plain ind) (hdd : d.Different E) (hdf : d.full = true) (hdl : d.isList = true)
    {data : Bytes} (ht : TextOf (m.lines ind ++ d.lines ind) data) (hf : (m.lines ind ++ d.lines ind).length ≤ f) :
    ∃ r s, newValueFromYaml E pick f p h data uc = .ok (some r, s) ∧ IsValue E s.h r d := by
  obtain ⟨s, S, r, x, e, a, hat, hr, g, h1, -⟩ := block_start E pick f I hp uc hm hmf (Or.inl hmm) (block_nl d ind hd) ht hf
  obtain ⟨s1, x1, l, e1, D1⟩ := (blocks L pick f m ind a hat g hm hmd).1 hmm [] (Or.inl (by rw [h1 hmm]; exact holds_nil E)) (by simp)
  obtain ⟨S1, -, a1⟩ := D1.next
  obtain ⟨F1, u1⟩ := D1.upd
  obtain ⟨s2, x2, ys, e2, D2⟩ := (blocks L pick f d ind a1 D1.pos u1.good hd hdd).2 hdl [] (Or.inr ⟨rfl, (D1.holds hmf).obj⟩)
  obtain ⟨F2, u2⟩ := D2.upd
  have H := D2.holds hdf
  subst H
  refine ⟨r, { s2 with p := s2.p.reset }, ?_, _, F2, u2.good, .list hdl (by simpa using D2.fits)⟩
  rw [e, runLines_append, e1]
  show (runLines E pick f (d.lines ind) s1).bind _ = _
  rw [e2]
  show Res.ok _ = _
  rw [D2.root, D1.root, hr]

/-- `a: x`, `b:`, `- y`: the result is `["y"]`. -/
example : yaml (text [[97, 58, 32, 120], [98, 58], [45, 32, 121]]) = .ok (.arr [.str [121]]) := by rfl

/-- `a:b` is no entry, and `-b` no item. -/
example : yaml (text [[97, 58, 98]]) = .err (.yaml [97, 58, 98]) ∧ yaml (text [[45, 32, 97], [45, 98]]) = .err (.yaml [98]) := ⟨by rfl, by rfl⟩

/-- `a: &n x`, `b:`, `  c: *n`: an alias in the first entry of a deeper mapping. -/
example : yaml (text [[97, 58, 32, 38, 110, 32, 120], [98, 58], [32, 32, 99, 58, 32, 42, 110]]) = .ok (.obj false [([97], .str [120]), ([98], .obj false [([99], .str [120])])]) := by rfl

/-- `- k:`, `    - x`: a list under the first entry of an item becomes the string `null x`. -/
theorem C100_first_entry_list_counterexample : yaml (text [[45, 32, 107, 58], [32, 32, 32, 32, 45, 32, 120]]) = .ok (.arr [.obj false [([107], .str [110, 117, 108, 108, 32, 120])]]) := by rfl

/-- `- a:`, `    b:`, `      c: x`, `  d: y`: the entry `d` of the item ends up in `a`. -/
theorem C100_first_entry_deep_counterexample : yaml (text [[45, 32, 97, 58], [32, 32, 32, 32, 98, 58], [32, 32, 32, 32, 32, 32, 99, 58, 32, 120], [32, 32, 100, 58, 32, 121]]) =
    .ok (.arr [.obj false [([97], .obj false [([98], .obj false [([99], .str [120])]), ([100], .str [121])])]]) := by rfl

/-- `-   a: x`, `    b: y`: the second entry replaces the value of the first. -/
theorem C100_wide_dash_counterexample : yaml (text [[45, 32, 32, 32, 97, 58, 32, 120], [32, 32, 32, 32, 98, 58, 32, 121]]) = .ok (.arr [.obj false [([97], .obj false [([98], .str [121])])]]) := by rfl

/-- `-`, `  - x`, `- y`: a dash alone in the first column is not seen, and what is under it is lost when the next item comes. -/
theorem C100_dash_counterexample : yaml (text [[45], [32, 32, 45, 32, 120], [45, 32, 121]]) = .ok (.arr [.str [121]]) := by rfl

/-- `- - x`: the item is the string `- x`. -/
theorem C100_compact_list_counterexample : yaml (text [[45, 32, 45, 32, 120]]) = .ok (.arr [.str [45, 32, 120]]) := by rfl

/-- `- a:b: c`: only the first colon is looked at, the item is a string. -/
theorem C100_colon_counterexample : yaml (text [[45, 32, 97, 58, 98, 58, 32, 99]]) = .ok (.arr [.str [97, 58, 98, 58, 32, 99]]) := by rfl

/-- `- # c`, `  - x`: the comment is taken for an item. -/
theorem C100_comment_counterexample : yaml (text [[45, 32, 35, 32, 99], [32, 32, 45, 32, 120]]) = .ok (.arr [.str [35, 32, 99, 32, 120]]) := by rfl

/-- `a: x`, `  y z`: a scalar on two lines is dropped, an object takes its place. -/
theorem C100_two_lines_counterexample : yaml (text [[97, 58, 32, 120], [32, 32, 121, 32, 122]]) = .ok (.obj false [([97], .obj false [([121, 32, 122], .obj false [])])]) := by rfl

/-! ## C101: a mapping entry after list items -/

/-- C101: a line that is neither an item nor a comment, at the indentation of a list, is refused. Partial: the last item of the list has deeper lines, and the list is the whole text so far; see the counterexample. -/
theorem C101_partial {E : Env} (L : KeyLaws E) (pick : Heap → Option Nat) (f : Nat) {h : Heap} (I : Inv h) {p : Parser} (hp : FromPool p) (uc : Bool) {d : YB} {ind : Nat} (hm : d.Plain ind)
    (hd : d.Different E) (hl : d.isList = true) (hdeep : d.deep = true) {line : Bytes} {c : UInt8} (hc : line.head? = some c) (h32 : c ≠ 32) (h35 : c ≠ 35) (h45 : c ≠ 45) (hlen : 2 ≤ line.length)
    {more : List Bytes} (hnl : ∀ l ∈ line :: more, 10 ∉ l) {data : Bytes} (ht : TextOf (d.lines ind ++ (List.replicate ind 32 ++ line) :: more) data)
    (hf : (d.lines ind ++ (List.replicate ind 32 ++ line) :: more).length ≤ f) :
    newValueFromYaml E pick f p h data uc = .err (.yaml (cutComment line)) := by
  have hn := deep_full d hdeep
  have hmore : ∀ l ∈ (List.replicate ind 32 ++ line) :: more, 10 ∉ l := by
    intro l hl'
    rcases List.mem_cons.mp hl' with rfl | hl'
    · have := hnl line List.mem_cons_self
      simp [this]
    · exact hnl l (List.mem_cons_of_mem _ hl')
  obtain ⟨s, S, r, x, e, a, hat, hr, g, -, h2⟩ := block_start E pick f I hp uc hm hn (Or.inr hl) hmore ht hf
  have hx : x = .arr [] := h2 (by
    cases hmap : d.isMap with
    | false => rfl
    | true => exact absurd (deep_not_map d hdeep) (by simp [hmap]))
  obtain ⟨s1, x1, ys, e1, D⟩ := (blocks L pick f d ind a hat g hm hd).2 hl [] (Or.inl hx)
  have H := D.holds hn
  subst H
  obtain ⟨F1, u1⟩ := D.upd
  have hdt : (s1.h.mem r).dt = .array := rep_dt u1.good.rep
  have hlast := D.deep hdeep
  rw [e, runLines_append, e1]
  show (runLines E pick f ((List.replicate ind 32 ++ line) :: more) s1).bind _ = _
  rw [runLines_entry _ _ _ hc h32 hlen, parseLine_pop D.pos hc h35 rfl, if_neg h45]
  have : parseObject E pick f (cutComment line) ind { s1 with p := { s1.p with stack := [⟨false, -1, r⟩] } } = .err (.yaml (cutComment line)) := by
    unfold parseObject
    simp only [List.cons_ne_nil, if_false, List.head?_cons, false_and, Bool.false_eq_true, and_false]
    rw [if_neg (by omega), if_neg (by omega)]
    unfold objBack
    rw [if_pos (by simp [hdt])]
  rw [this]
  rfl

/-- `- a: x`, `  b: y`, `c: z`. -/
example : (YB.entry [97] [120] [] (.leaf [98] [121] [] .nil) .nil).deep = true ∧ yaml (text [[45, 32, 97, 58, 32, 120], [32, 32, 98, 58, 32, 121], [99, 58, 32, 122]]) = .err (.yaml [99, 58, 32, 122]) := ⟨rfl, by rfl⟩

/-- `- x`, `k: v`: no error, the list is gone. -/
theorem C101_counterexample : yaml (text [[45, 32, 120], [107, 58, 32, 118]]) = .ok (.obj false [([107], .str [118])]) := by rfl

/-! ## C102: what a scalar means -/

/-- What a scalar on one line means in YAML (core schema), without escapes in quotes. -/
inductive Means (E : Env) : Bytes → Val → Prop
  | yes : Means E [116, 114, 117, 101] .tru
  | no : Means E [102, 97, 108, 115, 101] .fls
  | null : Means E [110, 117, 108, 108] .null
  | tilde : Means E [126] .null
  | number {v x} : E.parseFloat v = some x → Means E v (.double x)
  | double {c} : 34 ∉ c → 92 ∉ c → Means E ([34] ++ c ++ [34]) (.str c)
  | single {c} : 39 ∉ c → Means E ([39] ++ c ++ [39]) (.str c)
  | plain {v} : E.parseFloat v = none → v ≠ [116, 114, 117, 101] → v ≠ [102, 97, 108, 115, 101] → v ≠ [110, 117, 108, 108] → v ≠ [126] →
      v.head? ≠ some 34 → v.head? ≠ some 39 → v.head? ≠ some 91 → v.head? ≠ some 123 → v.head? ≠ some 38 → v.head? ≠ some 42 → Means E v (.str v)

/-- The value of the only entry of a text. -/
theorem one_entry {E : Env} (L : KeyLaws E) (pick : Heap → Option Nat) (f : Nat) {h : Heap} (I : Inv h) {p : Parser} (hp : FromPool p) (uc : Bool) {k v cmt : Bytes} {ind : Nat}
    (pl : PlainLine k v) (hcmt : Cmt cmt) (hf : 1 ≤ f) {data : Bytes} (ht : TextOf [List.replicate ind 32 ++ (k ++ [58, 32] ++ v ++ cmt)] data) :
    ∃ r s x F, newValueFromYaml E pick f p h data uc = .ok (some r, s) ∧ Good s.h (some r) x F ∧ Holds E x [(k, scalar E v)] := by
  have hpl : (YB.leaf k v cmt .nil).Plain ind := ⟨pl, hcmt, trivial⟩
  obtain ⟨s, S, r, x, e, a, hat, hr, g, h1, -⟩ := block_start E pick f I hp uc hpl rfl (Or.inl rfl) (more := []) (by simp) (by simpa [YB.lines] using ht) (by simpa [YB.lines] using hf)
  obtain ⟨s', x', l, e', D⟩ := (blocks L pick f _ ind a hat g hpl (by simp [YB.Different, YB.names])).1 rfl [] (Or.inl (by rw [h1 rfl]; exact holds_nil E)) (by simp)
  have H := D.holds rfl
  obtain ⟨F', u⟩ := D.upd
  have hl : l = [(k, scalar E v)] := by
    cases D.fits with
    | leaf h => cases h; rfl
  subst hl
  refine ⟨r, { s' with p := s'.p.reset }, x', F', ?_, u.good, by simpa using H⟩
  rw [e, List.append_nil, e', ← hr, ← D.root]
  rfl

/-- C102: the value of an entry is what the scalar means. Partial: no quotes and no null; the counterexamples say what these become. -/
theorem C102_partial {E : Env} (L : KeyLaws E) (pick : Heap → Option Nat) (f : Nat) {h : Heap} (I : Inv h) {p : Parser} (hp : FromPool p) (uc : Bool) {k v cmt : Bytes} {ind : Nat}
    (pl : PlainLine k v) (hcmt : Cmt cmt) (hf : 1 ≤ f) {data : Bytes} (ht : TextOf [List.replicate ind 32 ++ (k ++ [58, 32] ++ v ++ cmt)] data)
    (h34 : v.head? ≠ some 34) (h39 : v.head? ≠ some 39) (hnull : v ≠ [110, 117, 108, 108]) (htilde : v ≠ [126])
    (hnum : E.parseFloat [116, 114, 117, 101] = none ∧ E.parseFloat [102, 97, 108, 115, 101] = none) {x : Val} (hx : Means E v x) :
    ∃ r s o F, newValueFromYaml E pick f p h data uc = .ok (some r, s) ∧ Good s.h (some r) o F ∧ Holds E o [(k, x)] := by
  have : scalar E v = x := by
    unfold scalar
    cases hx with
    | yes => rw [if_pos rfl]
    | no => rw [if_neg (by decide), if_pos rfl]
    | null => exact absurd rfl hnull
    | tilde => exact absurd rfl htilde
    | number h =>
      rw [if_neg (by rintro rfl; rw [hnum.1] at h; cases h), if_neg (by rintro rfl; rw [hnum.2] at h; cases h), h]
    | double => exact absurd rfl h34
    | single => exact absurd rfl h39
    | plain h h1 h2 => rw [if_neg h1, if_neg h2, h]
  rw [← this]
  exact one_entry L pick f I hp uc pl hcmt hf ht

/-- Every quoted string keeps its quotes. -/
theorem C102_quotes_counterexample {E : Env} (L : KeyLaws E) (pick : Heap → Option Nat) (f : Nat) {h : Heap} (I : Inv h) {p : Parser} (hp : FromPool p) (uc : Bool) {k c cmt : Bytes} {q : UInt8} {ind : Nat}
    (hq : q = 34 ∨ q = 39) (pl : PlainLine k ([q] ++ c ++ [q])) (hcmt : Cmt cmt) (hf : 1 ≤ f) {data : Bytes} (ht : TextOf [List.replicate ind 32 ++ (k ++ [58, 32] ++ ([q] ++ c ++ [q]) ++ cmt)] data)
    (hnum : E.parseFloat ([q] ++ c ++ [q]) = none) :
    ∃ r s o F, newValueFromYaml E pick f p h data uc = .ok (some r, s) ∧ Good s.h (some r) o F ∧ Holds E o [(k, .str ([q] ++ c ++ [q]))] := by
  have : scalar E ([q] ++ c ++ [q]) = .str ([q] ++ c ++ [q]) := by
    unfold scalar
    rw [if_neg (by rcases hq with rfl | rfl <;> simp), if_neg (by rcases hq with rfl | rfl <;> simp), hnum]
  rw [← this]
  exact one_entry L pick f I hp uc pl hcmt hf ht

/-- `k: "x"`. -/
example : PlainLine [107] ([34] ++ [120] ++ [34]) ∧ envEx.parseFloat ([34] ++ [120] ++ [34]) = none ∧ Means envEx ([34] ++ [120] ++ [34]) (.str [120]) ∧
    yaml (text [[107, 58, 32, 34, 120, 34]]) = .ok (.obj false [([107], .str [34, 120, 34])]) := by
  refine ⟨⟨neat_of rfl rfl rfl rfl, neat_of rfl rfl rfl rfl, by decide, by decide, by decide, by decide, by decide, by decide⟩, rfl, .double (by decide) (by decide), by rfl⟩

/-- `k: null` and `k: ~`: strings. -/
theorem C102_null_counterexample : yaml (text [[107, 58, 32, 110, 117, 108, 108]]) = .ok (.obj false [([107], .str [110, 117, 108, 108])]) ∧
    yaml (text [[107, 58, 32, 126]]) = .ok (.obj false [([107], .str [126])]) := ⟨by rfl, by rfl⟩

/-- `k: [x, y]` and `k: {a: x}`: the empty string. -/
theorem C102_flow_counterexample : yaml (text [[107, 58, 32, 91, 120, 44, 32, 121, 93]]) = .ok (.obj false [([107], .str [])]) ∧
    yaml (text [[107, 58, 32, 123, 97, 58, 32, 120, 125]]) = .ok (.obj false [([107], .str [])]) := ⟨by rfl, by rfl⟩

/-- `k:` with nothing under it: an empty object instead of null. -/
theorem C102_empty_counterexample : yaml (text [[107, 58]]) = .ok (.obj false [([107], .obj false [])]) := by rfl

end Dxs.Yaml
