import Verif.Yaml.Flat

/-!
# Block mappings: texts, and what the parser makes of them
-/

namespace Dxs.Yaml

open Dxs.Heap

/-! ## The specification -/

/-- A block mapping, as it is written: entries `k: v` and `k:` with a deeper mapping (`n + 1` more spaces), comments behind entries, and lines
between them. -/
inductive YMap
  | nil
  | skip (l : Bytes) (r : YMap)
  | leaf (k v cmt : Bytes) (r : YMap)
  | sub (k cmt : Bytes) (n : Nat) (m r : YMap)

/-- The lines of a mapping at the indentation `ind`. -/
def YMap.lines (ind : Nat) : YMap → List Bytes
  | .nil => []
  | .skip l r => l :: r.lines ind
  | .leaf k v cmt r => (List.replicate ind 32 ++ (k ++ [58, 32] ++ v ++ cmt)) :: r.lines ind
  | .sub k cmt n m r => (List.replicate ind 32 ++ (k ++ [58] ++ cmt)) :: (m.lines (ind + n + 1) ++ r.lines ind)

/-- The names of a mapping, in order. -/
def YMap.names : YMap → List Bytes
  | .nil => []
  | .skip _ r => r.names
  | .leaf k _ _ r => k :: r.names
  | .sub k _ _ _ r => k :: r.names

/-- The entries of a mapping without deeper mappings. -/
def YMap.scalars : YMap → Option (List (Bytes × Bytes))
  | .nil => some []
  | .skip _ r => r.scalars
  | .leaf k v _ r => r.scalars.map ((k, v) :: ·)
  | .sub .. => none

/-- A comment behind an entry. -/
def Cmt (c : Bytes) : Prop := c = [] ∨ ∃ t, c = 32 :: 35 :: t ∧ 10 ∉ t

/-- A line without an entry: shorter than two bytes, or a comment. -/
def SkipLine (l : Bytes) : Prop := 10 ∉ l ∧ (l.length < 2 ∨ ∃ n t, l = List.replicate n 32 ++ 35 :: t)

/-- The entries are plain. -/
def YMap.Plain : YMap → Prop
  | .nil => True
  | .skip l r => SkipLine l ∧ r.Plain
  | .leaf k v cmt r => PlainLine k v ∧ Cmt cmt ∧ r.Plain
  | .sub k cmt _ m r => PlainKey k ∧ Cmt cmt ∧ m.Plain ∧ r.Plain

/-- In every mapping the names are different. -/
def YMap.Different (E : Env) : YMap → Prop
  | .nil => True
  | .skip _ r => r.Different E
  | .leaf k _ _ r => (∀ k' ∈ r.names, E.keyMatch k k' = false) ∧ r.Different E
  | .sub k _ _ m r => (∀ k' ∈ r.names, E.keyMatch k k' = false) ∧ m.Different E ∧ r.Different E

/-- The members are the entries, in order: a scalar for `k: v`, an object for `k:`. -/
inductive Fits (E : Env) : List (Bytes × Val) → YMap → Prop
  | nil : Fits E [] .nil
  | skip {l r m} : Fits E m r → Fits E m (.skip l r)
  | leaf {k v cmt m r} : Fits E m r → Fits E ((k, scalar E v) :: m) (.leaf k v cmt r)
  | sub {k cmt n ku kvs m b r} : Fits E (members E (.obj ku kvs)) b → Fits E m r → Fits E ((k, .obj ku kvs) :: m) (.sub k cmt n b r)

/-! ## Lines -/

/-- The lines one after the other. -/
def runLines (E : Env) (pick : Heap → Option Nat) (k : Nat) : List Bytes → St → Res St
  | [], s => .ok s
  | l :: r, s => if l.length < 2 then runLines E pick k r s else (parseLine E pick k l (l.takeWhile (· == 32)).length s).bind (runLines E pick k r)

theorem runLines_append (E : Env) (pick : Heap → Option Nat) (k : Nat) (b : List Bytes) : ∀ (a : List Bytes) (s : St),
    runLines E pick k (a ++ b) s = (runLines E pick k a s).bind (runLines E pick k b)
  | [], s => rfl
  | l :: a, s => by
    simp only [List.cons_append, runLines]
    split
    · exact runLines_append E pick k b a s
    · rcases parseLine E pick k l (l.takeWhile (· == 32)).length s with s' | _ | _ | _
      · exact runLines_append E pick k b a s'
      all_goals rfl

/-- The loop over a text of complete lines. -/
theorem parseLoop_lines (E : Env) (pick : Heap → Option Nat) (k : Nat) (data : Bytes) : ∀ (ls : List Bytes) (pre : Bytes) (f : Nat) (s : St),
    data = pre ++ (ls.map (· ++ [10])).flatten → ls ≠ [] → (∀ l ∈ ls, 10 ∉ l) → ls.length ≤ f → parseLoop E pick k data f pre.length s = runLines E pick k ls s
  | [], _, _, _, _, h, _, _ => absurd rfl h
  | l :: ls, pre, 0, s, _, _, _, hf => by simp at hf
  | l :: ls, pre, f + 1, s, hd, _, hn, hf => by
    have hrest : data.drop pre.length = l ++ 10 :: (ls.map (· ++ [10])).flatten := by
      rw [hd]; simp
    have hline : (l ++ 10 :: (ls.map (· ++ [10])).flatten).takeWhile (· != 10) = l := by
      rw [List.takeWhile_append_of_pos]
      · simp
      · intro a ha
        have : a ≠ 10 := fun e => hn l List.mem_cons_self (e ▸ ha)
        simpa using this
    have hlen : data.length = pre.length + l.length + 1 + ((ls.map (· ++ [10])).flatten).length := by
      rw [hd]; simp; omega
    rw [parseLoop, hrest, hline]
    rw [if_pos (show l.length < (l ++ 10 :: (ls.map (· ++ [10])).flatten).length by simp)]
    have next : ∀ s, ls ≠ [] → parseLoop E pick k data f (pre.length + l.length + 1) s = runLines E pick k ls s := by
      intro s hne
      have := parseLoop_lines E pick k data ls (pre ++ l ++ [10]) f s (by rw [hd]; simp) hne (fun l hl => hn l (List.mem_cons_of_mem _ hl)) (by simp at hf; omega)
      rw [← this]
      simp [Nat.add_assoc]
    have hfl : ls ≠ [] → 0 < ((ls.map (· ++ [10])).flatten).length := by
      intro hne
      cases ls with
      | nil => exact absurd rfl hne
      | cons a r => simp; omega
    rw [runLines]
    by_cases hl : l.length < 2
    · rw [if_pos (by omega), if_pos hl]
      by_cases hne : ls = []
      · subst hne
        simp at hlen
        rw [if_pos (by omega)]; rfl
      · have := hfl hne
        rw [if_neg (by omega)]
        exact next s hne
    · rw [if_neg (by omega), if_neg hl]
      rcases parseLine E pick k l (l.takeWhile (· == 32)).length s with s' | _ | _ | _
      rotate_left
      all_goals try rfl
      show (if data.length ≤ pre.length + l.length + 1 then _ else _) = runLines E pick k ls s'
      by_cases hne : ls = []
      · subst hne
        simp at hlen
        rw [if_pos (by omega)]; rfl
      · have := hfl hne
        rw [if_neg (by omega)]
        exact next s' hne

/-- A newline at the end changes nothing, if the last line has two bytes or more. -/
theorem parseLoop_newline (E : Env) (pick : Heap → Option Nat) (k : Nat) (data : Bytes) : ∀ (f i : Nat) (s : St), i ≤ data.length →
    (∀ l, (linesOf (data.drop i)).getLast? = some l → 2 ≤ l.length) → parseLoop E pick k (data ++ [10]) f i s = parseLoop E pick k data f i s
  | 0, _, _, _, _ => rfl
  | f + 1, i, s, hi, hl => by
    have hlen : (data.drop i).length = data.length - i := List.length_drop
    have hd : (data ++ [10]).drop i = data.drop i ++ [10] := List.drop_append_of_le_length hi
    have htw : (data.drop i ++ [10]).takeWhile (· != 10) = (data.drop i).takeWhile (· != 10) := by
      generalize data.drop i = r
      induction r with
      | nil => rfl
      | cons c r ih => simp only [List.cons_append, List.takeWhile_cons, ih]
    rw [parseLoop, parseLoop, hd, htw]
    have hle : ((data.drop i).takeWhile (· != 10)).length ≤ (data.drop i).length := (List.takeWhile_prefix _).length_le
    by_cases hmore : ((data.drop i).takeWhile (· != 10)).length < (data.drop i).length
    · have hls := linesOf_more hmore
      rw [if_pos hmore, if_pos (show ((data.drop i).takeWhile (· != 10)).length < (data.drop i ++ ([10] : Bytes)).length by simp; omega)]
      generalize hln : (data.drop i).takeWhile (· != 10) = line at *
      have hdrop : (data.drop i).drop (line.length + 1) = data.drop (i + line.length + 1) := by rw [List.drop_drop]; congr 1
      rw [hdrop] at hls
      have hl' : ∀ l, (linesOf (data.drop (i + line.length + 1))).getLast? = some l → 2 ≤ l.length := by
        intro l hl'
        refine hl l ?_
        rw [hls, List.getLast?_cons]
        simp [hl']
      have hne : i + line.length + 1 < data.length := by
        rcases Nat.lt_or_ge (i + line.length + 1) data.length with h | h
        · exact h
        · rw [List.drop_eq_nil_of_le h] at hl'
          have := hl' [] rfl
          simp at this
      have next := fun s => parseLoop_newline E pick k data f (i + line.length + 1) s (by omega) hl'
      have h1 : (data ++ [10]).length = data.length + 1 := by simp
      rw [h1]
      simp only [next]
      rw [if_neg (show ¬i + line.length + 1 = data.length + 1 by omega), if_neg (show ¬i + line.length + 1 = data.length by omega)]
      simp only [if_neg (show ¬data.length + 1 ≤ i + line.length + 1 by omega), if_neg (show ¬data.length ≤ i + line.length + 1 by omega)]
    · obtain ⟨hls, hln⟩ := linesOf_last hmore
      have := hl (data.drop i) (by rw [hls]; rfl)
      rw [hln, if_neg (show ¬(data.drop i).length < (data.drop i).length by omega), if_pos (show (data.drop i).length < (data.drop i ++ ([10] : Bytes)).length by simp)]
      have h1 : (data ++ [10]).length = data.length + 1 := by simp
      rw [h1, hlen, show i + (data.length - i) = data.length by omega, if_neg (by omega)]
      simp
      intro hx; omega

theorem hashIdx_first {b : Bytes} (h : ¬[32, 35] <:+: b) (t : Bytes) : hashIdx (b ++ 32 :: 35 :: t) = some b.length := by
  induction b with
  | nil => simp [hashIdx]
  | cons c r ih =>
    have h' : ¬[32, 35] <:+: r := fun x => h (x.trans (List.suffix_cons c r).isInfix)
    rw [List.cons_append]
    unfold hashIdx
    split
    · rename_i r' e
      rw [List.cons.injEq] at e
      obtain ⟨rfl, e⟩ := e
      exfalso
      cases r with
      | nil => simp at e
      | cons d r =>
        rw [List.cons_append, List.cons.injEq] at e
        obtain ⟨rfl, -⟩ := e
        exact h (List.prefix_append [32, 35] r).isInfix
    · rename_i e
      cases e
      simp [ih h']
    · rename_i e; cases e

theorem cut_cmt {b c : Bytes} (hb : ¬[32, 35] <:+: b) (hl : 1 < b.length) (hc : Cmt c) : cutComment (b ++ c) = b := by
  unfold cutComment
  rcases hc with rfl | ⟨t, rfl, -⟩
  · rw [List.append_nil, hashIdx_none hb]
  · rw [hashIdx_first hb]
    dsimp only
    rw [if_pos hl]; simp

theorem indent {n : Nat} {t : Bytes} {c : UInt8} (h : t.head? = some c) (hc : c ≠ 32) : ((List.replicate n 32 ++ t).takeWhile (· == 32)).length = n := by
  induction n with
  | zero =>
    cases t with
    | nil => cases h
    | cons a t => cases h; simp [hc]
  | succ n ih => simpa [List.replicate_succ] using ih

/-- A line with an entry. -/
theorem runLines_entry (E : Env) (pick : Heap → Option Nat) (k : Nat) {ind : Nat} {t : Bytes} {c : UInt8} (h : t.head? = some c) (hc : c ≠ 32) (hl : 2 ≤ t.length) (r : List Bytes) (s : St) :
    runLines E pick k ((List.replicate ind 32 ++ t) :: r) s = (parseLine E pick k (List.replicate ind 32 ++ t) ind s).bind (runLines E pick k r) := by
  rw [runLines, if_neg (by simp; omega), indent h hc]

theorem runLines_skip (E : Env) (pick : Heap → Option Nat) (k : Nat) {l : Bytes} (h : SkipLine l) (r : List Bytes) (s : St) : runLines E pick k (l :: r) s = runLines E pick k r s := by
  rw [runLines]
  split
  · rfl
  · rename_i hl
    rcases h.2 with h | ⟨n, t, rfl⟩
    · exact absurd h hl
    · rw [indent (c := 35) rfl (by decide)]
      unfold parseLine
      have hd : (List.replicate n 32 ++ 35 :: t).drop n = 35 :: t := by
        rw [List.drop_append_of_le_length (by simp)]; simp
      rw [hd]
      rfl

/-- The first byte of an entry. -/
theorem entry_head {k : Bytes} (hn : Neat k) (h : k.head? ≠ some 35 ∧ k.head? ≠ some 45) (t : Bytes) : ∃ c, (k ++ t).head? = some c ∧ c ≠ 32 ∧ c ≠ 35 ∧ c ≠ 45 := by
  obtain ⟨⟨c, hc, h1, -⟩, -⟩ := hn
  rw [hc] at h
  refine ⟨c, ?_, h1, by simpa using h.1, by simpa using h.2⟩
  cases k with
  | nil => cases hc
  | cons a r => simpa using hc

section
variable {X : List Ptr} {h0 : Heap}

/-- The text of an entry `k: v`. -/
theorem leaf_line (E : Env) (pick : Heap → Option Nat) (f : Nat) {s : St} {ind : Nat} {spp : Int} {p : Ptr} {below : List YNode} (hp : Pos s ind spp p below)
    {ku : Bool} {kvs : List (Bytes × Val)} {F : List Ptr} (g : Good s.h (some p) (.obj ku kvs) F) (hc : ∀ d, s.p.cache = some d → d < s.h.nextC) {k v cmt : Bytes}
    (hnil : objOld E ku kvs k ≠ some .nil) (pl : PlainLine k v) (hcm : Cmt cmt) :
    ∃ q h2 F', parseLine E pick f (List.replicate ind 32 ++ (k ++ [58, 32] ++ v ++ cmt)) ind s =
        .ok { p := { s.p with first := false, stack := ⟨false, ind, q⟩ :: ⟨false, spp, p⟩ :: below, last := ind }, h := h2 } ∧
      Upd s.h F h2 (some p) (objPut E ku kvs k (scalar E v)) F' := by
  obtain ⟨c, h1, -, h35, h45⟩ := entry_head pl.key pl.khead ([58, 32] ++ v ++ cmt)
  have hl : 1 < (k ++ [58, 32] ++ v).length := by simp; omega
  obtain ⟨q, h2, F', e, u⟩ := obj_leaf E pick f (s := { s with p := { s.p with stack := ⟨false, spp, p⟩ :: below } }) rfl g hc hnil pl ind
  refine ⟨q, h2, F', ?_, u⟩
  rw [parseLine_at hp (by simpa using h1) h35 h45 (cut_cmt pl.comment hl hcm), e]
  rfl

theorem sub_line (E : Env) (pick : Heap → Option Nat) (f : Nat) {s : St} {ind : Nat} {spp : Int} {p : Ptr} {below : List YNode} (hp : Pos s ind spp p below)
    {ku : Bool} {kvs : List (Bytes × Val)} {F : List Ptr} (g : Good s.h (some p) (.obj ku kvs) F) (hc : ∀ d, s.p.cache = some d → d < s.h.nextC) {k cmt : Bytes}
    (hnew : objOld E ku kvs k = none) (pl : PlainKey k) (hcm : Cmt cmt) :
    ∃ q h1 Fq, parseLine E pick f (List.replicate ind 32 ++ (k ++ [58] ++ cmt)) ind s =
        .ok { p := { s.p with first := false, stack := ⟨false, ind, q⟩ :: ⟨false, spp, p⟩ :: below, last := ind }, h := h1 } ∧
      Good h1 (some q) (.obj false []) Fq ∧ ∀ h2 w' Fq', Upd h1 Fq h2 (some q) w' Fq' → ∃ F', Upd s.h F h2 (some p) (objPut E ku kvs k w') F' := by
  obtain ⟨c, h1, -, h35, h45⟩ := entry_head pl.key pl.khead ([58] ++ cmt)
  have hl : 1 < (k ++ [58]).length := by have := List.length_pos_iff.mpr (neat_ne pl.key); simp; omega
  obtain ⟨q, h2, F', e, u⟩ := obj_sub E pick f (s := { s with p := { s.p with stack := ⟨false, spp, p⟩ :: below } }) rfl g hc hnew pl ind
  refine ⟨q, h2, F', ?_, u⟩
  rw [parseLine_at hp (by simpa using h1) h35 h45 (cut_cmt (hash_key pl.comment) hl hcm), e]
  rfl

theorem Assoc_get_new {m : Bytes → Bytes → Bool} {l : List (Bytes × Val)} {k : Bytes} (h : ∀ kv ∈ l, m kv.1 k = false) : Assoc.get m l k = none := by
  induction l with
  | nil => rfl
  | cons x r ih =>
    obtain ⟨k', v'⟩ := x
    rw [Assoc.get, if_neg (by simp [h (k', v')]), ih (fun kv hk => h kv (List.mem_cons_of_mem _ hk))]

/-- The lines of a mapping put its entries behind the members of the object. -/
theorem block {E : Env} (L : KeyLaws E) (pick : Heap → Option Nat) (f : Nat) : ∀ (m : YMap) (ind : Nat) {S : Ptr → Prop} {s : St} {spp : Int} {p : Ptr} {below : List YNode}
    {x : Val} {F : List Ptr} {l0 : List (Bytes × Val)}, Fine X h0 S s → Pos s ind spp p below → Good s.h (some p) x F → Holds E x l0 → m.Plain → m.Different E →
    (∀ kv ∈ l0, ∀ k ∈ m.names, E.keyMatch kv.1 k = false) →
    ∃ s' x' F' l1, runLines E pick f (m.lines ind) s = .ok s' ∧ Next X h0 S s' ∧ Pos s' ind spp p below ∧ s'.p.root = s.p.root ∧ Upd s.h F s'.h (some p) x' F' ∧
      Holds E x' (l0 ++ l1) ∧ Fits E l1 m
  | .nil, ind, S, s, spp, p, below, x, F, l0, a, hp, g, H, _, _, _ => by
    refine ⟨s, x, F, [], rfl, ⟨S, fun _ => id, a⟩, hp, rfl, g.upd_refl, by simpa using H, .nil⟩
  | .skip l r, ind, S, s, spp, p, below, x, F, l0, a, hp, g, H, hpl, hdf, hk => by
    obtain ⟨s', x', F', l1, e, h1, h2, h3, h4, h5, h6⟩ := block L pick f r ind a hp g H hpl.2 hdf hk
    exact ⟨s', x', F', l1, by rw [YMap.lines, runLines_skip _ _ _ hpl.1]; exact e, h1, h2, h3, h4, h5, h6.skip⟩
  | .leaf k v cmt r, ind, S, s, spp, p, below, x, F, l0, a, hp, g, H, hpl, hdf, hk => by
    obtain ⟨ku, kvs, rfl⟩ := H.obj
    obtain ⟨c, hc1, hc2, -, -⟩ := entry_head hpl.1.key hpl.1.khead ([58, 32] ++ v ++ cmt)
    have hnew : ∀ kv ∈ l0, E.keyMatch kv.1 k = false := fun kv hkv => hk kv hkv k List.mem_cons_self
    obtain ⟨q, h2, F2, e, u⟩ := leaf_line E pick f hp g a.cache (by rw [objOld_members L ku kvs (by rw [H.mem]; exact H.unique), H.mem, Assoc_get_new hnew]; simp) hpl.1 hpl.2.1
    have H2 := H.put L k (scalar_ne_nil E v)
    rw [Assoc.put_new hnew] at H2
    obtain ⟨S2, hS, a2⟩ := parseLine_fine a e
    have hk2 : ∀ kv ∈ l0 ++ [(k, scalar E v)], ∀ k' ∈ r.names, E.keyMatch kv.1 k' = false := by
      intro kv hkv k' hk'
      rcases List.mem_append.mp hkv with h | h
      · exact hk kv h k' (List.mem_cons_of_mem _ hk')
      · simp at h; subst h; exact hdf.1 k' hk'
    obtain ⟨s', x', F', l1, e', ⟨S3, hS3, a3⟩, h2', h3, h4, h5, h6⟩ := block L pick f r ind a2 (hp.after h2 q false) u.good H2 hpl.2.2 hdf.2 hk2
    refine ⟨s', x', F', (k, scalar E v) :: l1, ?_, ⟨S3, fun q hq => hS3 q (hS q hq), a3⟩, h2', h3, UpdX.trans (X := []) u h4, by simpa using h5, h6.leaf⟩
    rw [YMap.lines, runLines_entry _ _ _ (by simpa using hc1) hc2 (by simp; omega), e]
    exact e'
  | .sub k cmt n m r, ind, S, s, spp, p, below, x, F, l0, a, hp, g, H, hpl, hdf, hk => by
    obtain ⟨ku, kvs, rfl⟩ := H.obj
    obtain ⟨c, hc1, hc2, -, -⟩ := entry_head hpl.1.key hpl.1.khead ([58] ++ cmt)
    have hnew : ∀ kv ∈ l0, E.keyMatch kv.1 k = false := fun kv hkv => hk kv hkv k List.mem_cons_self
    obtain ⟨q, h1, Fq, e, gq, hup⟩ := sub_line E pick f hp g a.cache (by rw [objOld_members L ku kvs (by rw [H.mem]; exact H.unique), H.mem, Assoc_get_new hnew]) hpl.1 hpl.2.1
    obtain ⟨S2, hS, a2⟩ := parseLine_fine a e
    have H1 : Holds E (.obj false []) [] := ⟨⟨_, _, rfl⟩, rfl, List.Pairwise.nil, by simp⟩
    obtain ⟨s3, x3, F3, l3, e3, ⟨S3, hS3, a3⟩, hp3, hr3, u3, H3, fit3⟩ := block L pick f m (ind + n + 1) a2 (Pos.inside h1 q false (by omega)) gq H1 hpl.2.2.1 hdf.2.1 (by simp)
    obtain ⟨F4, u4⟩ := hup _ _ _ u3
    obtain ⟨ku3, kvs3, rfl⟩ := H3.obj
    have H4 := H.put L k (w := .obj ku3 kvs3) (by simp)
    rw [Assoc.put_new hnew] at H4
    have hk2 : ∀ kv ∈ l0 ++ [(k, .obj ku3 kvs3)], ∀ k' ∈ r.names, E.keyMatch kv.1 k' = false := by
      intro kv hkv k' hk'
      rcases List.mem_append.mp hkv with h | h
      · exact hk kv h k' (List.mem_cons_of_mem _ hk')
      · simp at h; subst h; exact hdf.1 k' hk'
    obtain ⟨s', x', F', l1, e', ⟨S5, hS5, a5⟩, h2', h3, h4, h5, h6⟩ := block L pick f r ind a3 (Pos.back hp.1 hp3) u4.good H4 hpl.2.2.2 hdf.2.2 hk2
    refine ⟨s', x', F', (k, .obj ku3 kvs3) :: l1, ?_, ⟨S5, fun q hq => hS5 q (hS3 q (hS q hq)), a5⟩, h2', h3.trans hr3, UpdX.trans (X := []) u4 h4, by simpa using h5, .sub (by rw [H3.mem]; simpa using fit3) h6⟩
    have hl : 0 < k.length := List.length_pos_iff.mpr (neat_ne hpl.1.key)
    rw [YMap.lines, runLines_entry _ _ _ (by simpa using hc1) hc2 (by simp; omega), e]
    show runLines E pick f (m.lines (ind + n + 1) ++ r.lines ind) _ = _
    rw [runLines_append, e3]
    exact e'

/-- The root of the result. -/
theorem newRoot_holds (E : Env) (pick : Heap → Option Nat) {s : St} (I : Inv s.h) :
    ∃ r, (newRoot pick .object s).p = { s.p with cache := (newRoot pick .object s).p.cache, root := some r, stack := [⟨false, -1, r⟩] } ∧
      Good (newRoot pick .object s).h (some r) (.obj false []) [r] := by
  have hI := I.getCache (pick s.h)
  have e : newCacheValue s.h .object (pick s.h) = Heap.getValue (Heap.getCache s.h (pick s.h)).2 (some (Heap.getCache s.h (pick s.h)).1) .object := rfl
  unfold newRoot
  rw [e]
  generalize Heap.getCache s.h (pick s.h) = x at hI ⊢
  obtain ⟨c, h1⟩ := x
  simp only at hI ⊢
  have A := getValue_spec hI.1 (some c) .object (fun d hd => by cases hd; exact hI.2)
  generalize Heap.getValue h1 (some c) .object = x at A ⊢
  obtain ⟨r, h2⟩ := x
  simp only at A ⊢
  split <;> exact ⟨r, rfl, A.good⟩

/-- The first entry makes the root. -/
theorem parseLine_first (E : Env) (pick : Heap → Option Nat) (f : Nat) {s : St} (I : Inv s.h) (h1 : s.p.stack = []) (h2 : s.p.last = -1) (ind : Nat) {text body k v : Bytes} {c : UInt8}
    (hc : text.head? = some c) (h35 : c ≠ 35) (h45 : c ≠ 45) (hcut : cutComment text = body) (hs : splitKv body = (k, v, true)) (hk : k ≠ []) :
    parseLine E pick f (List.replicate ind 32 ++ text) ind s = parseLine E pick f (List.replicate ind 32 ++ text) ind (newRoot pick .object s) := by
  obtain ⟨r, hr, -⟩ := newRoot_holds E pick I
  have hpos : Pos (newRoot pick .object s) ind (-1) r [] := ⟨by omega, Or.inl ⟨by rw [hr], by rw [hr]; exact h2⟩⟩
  rw [parseLine_at hpos hc h35 h45 hcut]
  unfold parseLine
  have hd : (List.replicate ind 32 ++ text).drop ind = text := by
    rw [List.drop_append_of_le_length (by simp)]; simp
  rw [hd]
  obtain ⟨⟨first, useCache, last, root, cache, stack, uses⟩, h⟩ := s
  simp only at h1 h2
  subst h1 h2
  simp only [hc, if_neg h35, if_neg h45, hcut, List.head?_nil, Option.map_none, reduceCtorEq, and_false, if_false]
  rw [if_neg (by omega)]
  have : (newRoot pick .object ⟨⟨first, useCache, -1, root, cache, [], uses⟩, h⟩).p.stack = [⟨false, -1, r⟩] := by rw [hr]
  have hback : ({ p := { (newRoot pick .object ⟨⟨first, useCache, -1, root, cache, [], uses⟩, h⟩).p with stack := [⟨false, -1, r⟩] }, h := (newRoot pick .object ⟨⟨first, useCache, -1, root, cache, [], uses⟩, h⟩).h } : St) =
      newRoot pick .object ⟨⟨first, useCache, -1, root, cache, [], uses⟩, h⟩ := by
    generalize newRoot pick .object ⟨⟨first, useCache, -1, root, cache, [], uses⟩, h⟩ = t at this ⊢
    obtain ⟨⟨_, _, _, _, _, _, _⟩, _⟩ := t
    simp only at this
    rw [this]
  rw [hback]
  show (parseObject E pick f body ind _ >>= _) = _
  congr 1
  unfold parseObject
  simp only [if_true, this, List.cons_ne_nil, if_false, List.head?_cons, hs, hk, false_and, and_false, Bool.false_eq_true, reduceCtorEq, not_true_eq_false, or_self]

theorem root_first (E : Env) (pick : Heap → Option Nat) (f : Nat) {s : St} (I : Inv s.h) (h1 : s.p.stack = []) (h2 : s.p.last = -1) (ind : Nat) : ∀ (m : YMap), m.Plain → m.names ≠ [] →
    runLines E pick f (m.lines ind) s = runLines E pick f (m.lines ind) (newRoot pick .object s)
  | .nil, _, h => absurd rfl h
  | .skip l r, hp, h => by
    rw [YMap.lines, runLines_skip _ _ _ hp.1, runLines_skip _ _ _ hp.1]
    exact root_first E pick f I h1 h2 ind r hp.2 h
  | .leaf k v cmt r, hp, _ => by
    obtain ⟨c, hc1, hc2, h35, h45⟩ := entry_head hp.1.key hp.1.khead ([58, 32] ++ v ++ cmt)
    have hl : 1 < (k ++ [58, 32] ++ v).length := by simp; omega
    rw [YMap.lines, runLines_entry _ _ _ (by simpa using hc1) hc2 (by simp; omega), runLines_entry _ _ _ (by simpa using hc1) hc2 (by simp; omega),
      parseLine_first E pick f I h1 h2 ind (by simpa using hc1) h35 h45 (cut_cmt hp.1.comment hl hp.2.1) (splitKv_plain hp.1) (neat_ne hp.1.key)]
  | .sub k cmt n m r, hp, _ => by
    obtain ⟨c, hc1, hc2, h35, h45⟩ := entry_head hp.1.key hp.1.khead ([58] ++ cmt)
    have hl : 0 < k.length := List.length_pos_iff.mpr (neat_ne hp.1.key)
    rw [YMap.lines, runLines_entry _ _ _ (by simpa using hc1) hc2 (by simp; omega), runLines_entry _ _ _ (by simpa using hc1) hc2 (by simp; omega),
      parseLine_first E pick f I h1 h2 ind (by simpa using hc1) h35 h45 (cut_cmt (hash_key hp.1.comment) (by simp; omega) hp.2.1) (splitKv_key hp.1) (neat_ne hp.1.key)]

theorem lines_nl : ∀ (m : YMap) (ind : Nat), m.Plain → ∀ l ∈ m.lines ind, 10 ∉ l
  | .nil, _, _ => by simp [YMap.lines]
  | .skip l r, ind, h => by
    intro x hx
    rcases List.mem_cons.mp hx with rfl | hx
    · exact h.1.1
    · exact lines_nl r ind h.2 x hx
  | .leaf k v cmt r, ind, h => by
    intro x hx
    rcases List.mem_cons.mp hx with rfl | hx
    · have h1 := h.1.nl
      have h2 : 10 ∉ cmt := by rcases h.2.1 with rfl | ⟨t, rfl, ht⟩ <;> simp_all
      simp only [List.mem_append, not_or, List.mem_replicate] at h1 ⊢
      exact ⟨by simp, ⟨⟨h1.1, by simp⟩, h1.2⟩, h2⟩
    · exact lines_nl r ind h.2.2 x hx
  | .sub k cmt n m r, ind, h => by
    intro x hx
    rcases List.mem_cons.mp hx with rfl | hx
    · have h1 := h.1.nl
      have h2 : 10 ∉ cmt := by rcases h.2.1 with rfl | ⟨t, rfl, ht⟩ <;> simp_all
      simp only [List.mem_append, not_or, List.mem_replicate]
      exact ⟨by simp, ⟨h1, by simp⟩, h2⟩
    · rcases List.mem_append.mp hx with hx | hx
      · exact lines_nl m _ h.2.2.1 x hx
      · exact lines_nl r ind h.2.2.2 x hx

/-! ## Entries that may repeat -/

/-- Scalar entries, names may repeat. -/
theorem flat {E : Env} (L : KeyLaws E) (pick : Heap → Option Nat) (f : Nat) (ind : Nat) {spp : Int} {p : Ptr} {below : List YNode} (m : YMap) :
    ∀ {S : Ptr → Prop} {s : St} {x : Val} {F : List Ptr} {l0 : List (Bytes × Val)}, Fine X h0 S s → Pos s ind spp p below → Good s.h (some p) x F → Holds E x l0 → m.Plain →
    ∀ kvs, m.scalars = some kvs → ∃ s' x' F', runLines E pick f (m.lines ind) s = .ok s' ∧ Next X h0 S s' ∧ s'.p.root = s.p.root ∧ Upd s.h F s'.h (some p) x' F' ∧
      Holds E x' (Assoc.putAll E.keyMatch l0 (kvs.map (fun kv => (kv.1, scalar E kv.2)))) := by
  induction m with
  | nil =>
    intro S s x F l0 a hp g H _ kvs hs
    cases hs
    exact ⟨s, x, F, rfl, ⟨S, fun _ => id, a⟩, rfl, g.upd_refl, H⟩
  | skip l r ih =>
    intro S s x F l0 a hp g H hpl kvs hs
    obtain ⟨s', x', F', e, h1⟩ := ih a hp g H hpl.2 kvs hs
    exact ⟨s', x', F', by rw [YMap.lines, runLines_skip _ _ _ hpl.1]; exact e, h1⟩
  | leaf k v cmt r ih =>
    intro S s x F l0 a hp g H hpl kvs hs
    obtain ⟨kvr, hr, rfl⟩ := Option.map_eq_some_iff.mp hs
    obtain ⟨ku, kvs, rfl⟩ := H.obj
    obtain ⟨c, hc1, hc2, -, -⟩ := entry_head hpl.1.key hpl.1.khead ([58, 32] ++ v ++ cmt)
    have hold : objOld E ku kvs k ≠ some .nil := noNil_old (noNil_kvs (by rw [H.mem]; exact H.noNil)) k
    obtain ⟨q, h2, F2, e, u⟩ := leaf_line E pick f hp g a.cache hold hpl.1 hpl.2.1
    obtain ⟨S2, hS, a2⟩ := parseLine_fine a e
    obtain ⟨s', x', F', e', ⟨S3, hS3, a3⟩, h3, h4, h5⟩ := ih a2 (hp.after h2 q false) u.good (H.put L k (scalar_ne_nil E v)) hpl.2.2 kvr hr
    refine ⟨s', x', F', ?_, ⟨S3, fun q hq => hS3 q (hS q hq), a3⟩, h3, UpdX.trans (X := []) u h4, h5⟩
    rw [YMap.lines, runLines_entry _ _ _ (by simpa using hc1) hc2 (by simp; omega), e]
    exact e'
  | sub => intro S s x F l0 a hp g H hpl kvs hs; cases hs

end

end Dxs.Yaml
