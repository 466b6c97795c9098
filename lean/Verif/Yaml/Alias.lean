import Verif.Yaml.Block
import Verif.Heap.Clone

/-!
# Mappings with anchors, aliases and merges: texts, and what the parser makes of them
-/

namespace Dxs.Yaml

open Dxs.Heap

/-! ## The specification -/

/-- What a mapping stands for. -/
inductive YV
  | leaf (v : Bytes)
  | map (l : List (Bytes × YV))

/-- A block mapping, as it is written: `k: v`, `k: &n v`, `k: *n`, and `k:` or `k: &n` with a deeper mapping (`d + 1` more spaces) that may begin with
`<<: *n`. -/
inductive ADoc
  | nil
  | leaf (k v : Bytes) (r : ADoc)
  | anchor (k n v : Bytes) (r : ADoc)
  | alias (k n : Bytes) (r : ADoc)
  | sub (k : Bytes) (a : Option Bytes) (mg : Option Bytes) (d : Nat) (m r : ADoc)

/-- The text behind `k:`. -/
def ADoc.head (k : Bytes) : Option Bytes → Bytes
  | none => k ++ [58]
  | some n => k ++ [58, 32] ++ (38 :: n)

/-- The line `<<: *n`. -/
def ADoc.mergeLine (ind : Nat) : Option Bytes → List Bytes
  | none => []
  | some n => [List.replicate ind 32 ++ ([60, 60] ++ [58, 32] ++ (42 :: n))]

/-- The lines at the indentation `ind`. -/
def ADoc.lines (ind : Nat) : ADoc → List Bytes
  | .nil => []
  | .leaf k v r => (List.replicate ind 32 ++ (k ++ [58, 32] ++ v)) :: r.lines ind
  | .anchor k n v r => (List.replicate ind 32 ++ (k ++ [58, 32] ++ (38 :: (n ++ 32 :: v)))) :: r.lines ind
  | .alias k n r => (List.replicate ind 32 ++ (k ++ [58, 32] ++ (42 :: n))) :: r.lines ind
  | .sub k a mg d m r => (List.replicate ind 32 ++ ADoc.head k a) :: (ADoc.mergeLine (ind + d + 1) mg ++ (m.lines (ind + d + 1) ++ r.lines ind))

/-- The anchors. -/
def ADoc.anchors : ADoc → List Bytes
  | .nil => []
  | .leaf _ _ r => r.anchors
  | .anchor _ n _ r => n :: r.anchors
  | .alias _ _ r => r.anchors
  | .sub _ a _ _ m r => a.toList ++ (m.anchors ++ r.anchors)

/-- No entries. -/
def ADoc.isNil : ADoc → Bool
  | .nil => true
  | _ => false

mutual
/-- No `true` and no `false` inside. -/
def YV.noBool : YV → Bool
  | .leaf v => v ≠ [116, 114, 117, 101] && v ≠ [102, 97, 108, 115, 101]
  | .map l => YV.noBools l
/-- The members. -/
def YV.noBools : List (Bytes × YV) → Bool
  | [] => true
  | (_, y) :: l => y.noBool && YV.noBools l
end

/-- The anchored values, the newest first. -/
abbrev Scope := List (Bytes × YV)

/-- The value an alias stands for. -/
def Scope.find (sc : Scope) (n : Bytes) : Option YV := ((List.find? (fun kv => kv.1 == n) sc).map Prod.snd).filter YV.noBool

/-- Inside the mapping anchored `n`, there is no value of `n`. -/
def Scope.hide (sc : Scope) : Option Bytes → Scope
  | none => sc
  | some n => sc.filter (fun kv => kv.1 != n)

/-- The anchor, if there is one. -/
def Scope.add (sc : Scope) (a : Option Bytes) (y : YV) : Scope :=
  match a with
  | none => sc
  | some n => (n, y) :: sc

/-- The mapping under construction starts with the merged members. -/
def Scope.start (sc : Scope) : Option Bytes → Option (List (Bytes × YV))
  | none => some []
  | some n =>
    match sc.find n with
    | some (.map l) => some l
    | _ => none

/-- What a mapping stands for: its members and the anchors afterwards. `fst`: no entry before; `names`: the names of the entries before; `acc`: the members before,
with those merged. No value where the text is not valid (an alias without an anchor, a name twice), and where the parser does something else: an anchor of a mapping
that is not the first entry, `k:` for a member that was merged, aliases of booleans. -/
def ADoc.eval (E : Env) : ADoc → Bool → List Bytes → Scope → List (Bytes × YV) → Option (List (Bytes × YV) × Scope)
  | .nil, _, _, sc, acc => some (acc, sc)
  | .leaf k v r, _, names, sc, acc =>
    if names.any (E.keyMatch · k) then none
    else r.eval E false (k :: names) sc (Assoc.put E.keyMatch acc k (.leaf v))
  | .anchor k n v r, _, names, sc, acc =>
    if names.any (E.keyMatch · k) then none
    else r.eval E false (k :: names) ((n, .leaf v) :: sc) (Assoc.put E.keyMatch acc k (.leaf v))
  | .alias k n r, _, names, sc, acc =>
    if names.any (E.keyMatch · k) then none
    else
      match sc.find n with
      | none => none
      | some y => r.eval E false (k :: names) sc (Assoc.put E.keyMatch acc k y)
  | .sub k a mg _ m r, fst, names, sc, acc =>
    if names.any (E.keyMatch · k) || acc.any (fun kv => E.keyMatch kv.1 k) || (mg.isNone && m.isNil) || (a.isSome && (!fst || a.any (m.anchors.contains ·))) then none
    else
      match (sc.hide a).start mg with
      | none => none
      | some l0 =>
        match m.eval E mg.isNone [] (sc.hide a) l0 with
        | none => none
        | some (l, sc') => r.eval E false (k :: names) (sc'.add a (.map l)) (Assoc.put E.keyMatch acc k (.map l))

/-- A name of an anchor. -/
def AName (n : Bytes) : Prop := n ≠ [] ∧ 32 ∉ n ∧ 10 ∉ n ∧ 13 ∉ n

/-- A line `k: v`: one line, no comment, no indentation, no list item, no merge. -/
structure EntryLine (k v : Bytes) : Prop where
  key : Neat k
  val : Neat v
  colon : 58 ∉ k
  nl : 10 ∉ k ++ v
  comment : ¬[32, 35] <:+: k ++ [58, 32] ++ v
  khead : k.head? ≠ some 35 ∧ k.head? ≠ some 45
  merge : k ≠ [60, 60]

/-- The texts are as they should be. -/
def ADoc.Plain : ADoc → Prop
  | .nil => True
  | .leaf k v r => PlainLine k v ∧ r.Plain
  | .anchor k n v r => PlainLine k v ∧ AName n ∧ EntryLine k (38 :: (n ++ 32 :: v)) ∧ r.Plain
  | .alias k n r => AName n ∧ EntryLine k (42 :: n) ∧ r.Plain
  | .sub k a mg _ m r => PlainKey k ∧ (∀ n, a = some n → AName n ∧ EntryLine k (38 :: n)) ∧ (∀ n, mg = some n → AName n) ∧ m.Plain ∧ r.Plain

mutual
/-- The value `x` is what `y` says. -/
def Is (E : Env) : YV → Val → Prop
  | .leaf v, x => x = scalar E v
  | .map l, x => ∃ ku kvs, x = .obj ku kvs ∧ Assoc.Distinct E.keyMatch (members E (.obj ku kvs)) ∧ IsL E l (members E (.obj ku kvs))
/-- The members. -/
def IsL (E : Env) : List (Bytes × YV) → List (Bytes × Val) → Prop
  | [], m => m = []
  | (k, y) :: l, m => ∃ x m', m = (k, x) :: m' ∧ Is E y x ∧ IsL E l m'
end

/-- No number begins with `&` or `*`. -/
def NumLaw (E : Env) : Prop := ∀ v : Bytes, v.head? = some 38 ∨ v.head? = some 42 → E.parseFloat v = none

/-! ## Values -/

theorem is_ne_nil {E : Env} : ∀ {y : YV} {x : Val}, Is E y x → x ≠ .nil
  | .leaf v, x, h => by rw [Is] at h; rw [h]; exact scalar_ne_nil E v
  | .map l, x, h => by obtain ⟨_, _, rfl, _⟩ := h; simp

theorem isL_put {E : Env} {m : Bytes → Bytes → Bool} : ∀ {l : List (Bytes × YV)} {l' : List (Bytes × Val)} {k : Bytes} {y : YV} {x : Val}, IsL E l l' → Is E y x →
    IsL E (Assoc.put m l k y) (Assoc.put m l' k x)
  | [], l', k, y, x, h, hy => by cases h; exact ⟨x, [], rfl, hy, rfl⟩
  | (k0, y0) :: l, l', k, y, x, h, hy => by
    obtain ⟨x0, m', rfl, h0, hl⟩ := h
    unfold Assoc.put
    split
    · exact ⟨x, m', rfl, hy, hl⟩
    · exact ⟨x0, _, rfl, h0, isL_put hl hy⟩

theorem isL_keys {E : Env} : ∀ {l : List (Bytes × YV)} {l' : List (Bytes × Val)}, IsL E l l' → l'.map Prod.fst = l.map Prod.fst
  | [], l', h => by cases h; rfl
  | (k0, y0) :: l, l', h => by
    obtain ⟨x0, m', rfl, h0, hl⟩ := h
    simp [isL_keys hl]

theorem isL_noNil {E : Env} : ∀ {l : List (Bytes × YV)} {l' : List (Bytes × Val)}, IsL E l l' → ∀ kv ∈ l', kv.2 ≠ .nil
  | [], l', h => by cases h; simp
  | (k0, y0) :: l, l', h => by
    obtain ⟨x0, m', rfl, h0, hl⟩ := h
    intro kv hkv
    rcases List.mem_cons.mp hkv with rfl | hkv
    · exact is_ne_nil h0
    · exact isL_noNil hl kv hkv

theorem cloneVals_map (kvs : List (Bytes × Val)) : cloneVals kvs = kvs.map (fun kv => (kv.1, cloneVal kv.2)) := by
  induction kvs with
  | nil => rfl
  | cons x r ih => obtain ⟨k, v⟩ := x; simp [cloneVals, ih]

theorem members_clone (E : Env) (ku : Bool) (kvs : List (Bytes × Val)) : members E (.obj ku (cloneVals kvs)) = (members E (.obj ku kvs)).map (fun kv => (kv.1, cloneVal kv.2)) := by
  cases ku <;> simp [members, cloneVals_map]

mutual
theorem is_clone {E : Env} : ∀ {y : YV} {x : Val}, Is E y x → Is E y (cloneVal x)
  | .leaf v, x, h => by
    rw [Is] at h ⊢
    subst h
    unfold scalar
    split
    · rfl
    split
    · rfl
    split <;> rfl
  | .map l, x, h => by
    obtain ⟨ku, kvs, rfl, hd, hl⟩ := h
    refine ⟨ku, cloneVals kvs, rfl, ?_, ?_⟩
    · rw [members_clone]
      unfold Assoc.Distinct at hd ⊢
      simpa [Function.comp_def] using hd
    · rw [members_clone]
      exact isL_clone hl
theorem isL_clone {E : Env} : ∀ {l : List (Bytes × YV)} {l' : List (Bytes × Val)}, IsL E l l' → IsL E l (l'.map (fun kv => (kv.1, cloneVal kv.2)))
  | [], l', h => by cases h; rfl
  | (k0, y0) :: l, l', h => by
    obtain ⟨x0, m', rfl, h0, hl⟩ := h
    exact ⟨_, _, rfl, is_clone h0, isL_clone hl⟩
end

mutual
/-- The height. -/
def YV.height : YV → Nat
  | .leaf _ => 1
  | .map l => YV.heights l + 1
/-- The members. -/
def YV.heights : List (Bytes × YV) → Nat
  | [] => 0
  | (_, y) :: l => max y.height (YV.heights l)
end

theorem heightM_snd : ∀ {a b : List (Bytes × Val)}, a.map Prod.snd = b.map Prod.snd → heightM a = heightM b
  | [], [], _ => rfl
  | [], _ :: _, h => by simp at h
  | _ :: _, [], h => by simp at h
  | (k, v) :: a, (k', v') :: b, h => by
    simp only [List.map_cons, List.cons.injEq] at h
    obtain ⟨rfl, h⟩ := h
    simp [heightM, heightM_snd h]

theorem noNilM_snd : ∀ {a b : List (Bytes × Val)}, a.map Prod.snd = b.map Prod.snd → noNilM a = noNilM b
  | [], [], _ => rfl
  | [], _ :: _, h => by simp at h
  | _ :: _, [], h => by simp at h
  | (k, v) :: a, (k', v') :: b, h => by
    simp only [List.map_cons, List.cons.injEq] at h
    obtain ⟨rfl, h⟩ := h
    simp [noNilM, noNilM_snd h]

mutual
theorem is_height {E : Env} : ∀ {y : YV} {x : Val}, Is E y x → Heap.height x = y.height
  | .leaf v, x, h => by
    rw [Is] at h
    subst h
    unfold scalar
    split
    · rfl
    split
    · rfl
    split <;> rfl
  | .map l, x, h => by
    obtain ⟨ku, kvs, rfl, hd, hl⟩ := h
    rw [YV.height, ← isL_height hl, Heap.height, heightM_snd (members_snd E ku kvs)]
theorem isL_height {E : Env} : ∀ {l : List (Bytes × YV)} {l' : List (Bytes × Val)}, IsL E l l' → heightM l' = YV.heights l
  | [], l', h => by cases h; rfl
  | (k0, y0) :: l, l', h => by
    obtain ⟨x0, m', rfl, h0, hl⟩ := h
    simp [heightM, YV.heights, is_height h0, isL_height hl]
end

mutual
theorem is_full {E : Env} : ∀ {y : YV} {x : Val}, Is E y x → noNil x = true
  | .leaf v, x, h => by
    rw [Is] at h
    subst h
    unfold scalar
    split
    · rfl
    split
    · rfl
    split <;> rfl
  | .map l, x, h => by
    obtain ⟨ku, kvs, rfl, hd, hl⟩ := h
    rw [noNil, ← noNilM_snd (members_snd E ku kvs)]
    exact isL_full hl
theorem isL_full {E : Env} : ∀ {l : List (Bytes × YV)} {l' : List (Bytes × Val)}, IsL E l l' → noNilM l' = true
  | [], l', h => by cases h; rfl
  | (k0, y0) :: l, l', h => by
    obtain ⟨x0, m', rfl, h0, hl⟩ := h
    simp [noNilM, is_full h0, isL_full hl]
end

mutual
theorem is_copyable {E : Env} {m : Ptr → Node} : ∀ {y : YV} {x : Val} {a : Option Ptr} {F : List Ptr}, Is E y x → y.noBool = true → Rep m x a F → ∀ q ∈ F, (m q).dt.ord < 11
  | .leaf v, x, a, F, h, hb, hr => by
    rw [Is] at h
    subst h
    simp only [YV.noBool, ne_eq, Bool.and_eq_true, decide_eq_true_eq] at hb
    unfold scalar at hr
    rw [if_neg hb.1, if_neg hb.2] at hr
    have key : ∀ x : Val, x.vt.ord < 11 → Val.isLeaf x = true → Rep m x a F → ∀ q ∈ F, (m q).dt.ord < 11 := by
      intro x hx hlf hr q hq
      have hr' := hr
      rw [rep_leaf hlf] at hr'
      obtain ⟨p, rfl, rfl, -⟩ := hr'
      unfold foot at hq
      split at hq
      · cases hq
      · simp at hq
        subst hq
        rw [rep_dt hr]; exact hx
    split at hr
    · exact key _ (by simp [Val.vt, VT.ord]) rfl hr
    · exact key _ (by simp [Val.vt, VT.ord]) rfl hr
  | .map l, x, a, F, h, hb, hr => by
    obtain ⟨ku, kvs, rfl, hd, hl⟩ := h
    obtain ⟨p, F', rfl, h5, rfl, hdt, hk, hm⟩ := hr
    intro q hq
    rcases List.mem_cons.mp hq with rfl | hq
    · rw [hdt]; simp [VT.ord]
    · have hrl := (repM_iff.1 hm).2
      rw [← members_snd E ku kvs] at hrl
      exact isL_copyable hl hb hrl q hq
theorem isL_copyable {E : Env} {m : Ptr → Node} : ∀ {l : List (Bytes × YV)} {l' : List (Bytes × Val)} {ps : List (Option Ptr)} {F : List Ptr}, IsL E l l' → YV.noBools l = true →
    RepL m (l'.map Prod.snd) ps F → ∀ q ∈ F, (m q).dt.ord < 11
  | [], l', ps, F, h, _, hr => by
    cases h
    obtain ⟨-, rfl⟩ := hr
    simp
  | (k0, y0) :: l, l', ps, F, h, hb, hr => by
    obtain ⟨x0, m', rfl, h0, hl⟩ := h
    obtain ⟨q, qs, F1, F2, rfl, rfl, h1, h2⟩ := hr
    simp only [YV.noBools, Bool.and_eq_true] at hb
    intro r hr
    rcases List.mem_append.mp hr with hr | hr
    · exact is_copyable h0 hb.1 h1 r hr
    · exact isL_copyable hl hb.2 h2 r hr
end

/-! ## Trees -/

theorem repL_mem {m : Ptr → Node} : ∀ {xs : List Val} {ps : List (Option Ptr)} {F : List Ptr}, RepL m xs ps F → ∀ {i : Nat} {c : Ptr}, ps[i]? = some (some c) → 5 ≤ c → c ∈ F
  | [], _, _, h, i, c, hi, _ => by obtain ⟨rfl, -⟩ := h; simp at hi
  | x :: xs, _, _, h, i, c, hi, h5 => by
    obtain ⟨q, qs, F1, F2, rfl, rfl, h1, h2⟩ := h
    cases i with
    | zero =>
      simp at hi; subst hi
      exact List.mem_append_left _ (rep_mem h1 h5)
    | succ i => exact List.mem_append_right _ (repL_mem h2 (by simpa using hi) h5)

theorem repL_sub {m : Ptr → Node} : ∀ {xs : List Val} {ps : List (Option Ptr)} {F : List Ptr}, RepL m xs ps F → ∀ {i : Nat} {a : Option Ptr} {x : Val} {G : List Ptr},
    ps[i]? = some a → Rep m x a G → ∀ q ∈ G, q ∈ F
  | [], _, _, h, i, a, x, G, hi, _ => by obtain ⟨rfl, -⟩ := h; simp at hi
  | x :: xs, _, _, h, i, a, y, G, hi, hr => by
    obtain ⟨q, qs, F1, F2, rfl, rfl, h1, h2⟩ := h
    intro r hrG
    cases i with
    | zero =>
      simp at hi; subst hi
      obtain ⟨-, rfl⟩ := rep_det h1 hr
      exact List.mem_append_left _ hrG
    | succ i => exact List.mem_append_right _ (repL_sub h2 (by simpa using hi) hr r hrG)

/-- Different children share nothing. -/
theorem repL_apart {m : Ptr → Node} : ∀ {xs : List Val} {ps : List (Option Ptr)} {F : List Ptr}, RepL m xs ps F → F.Nodup → ∀ {i j : Nat} {a : Option Ptr} {c : Ptr} {x : Val} {G : List Ptr},
    i ≠ j → ps[i]? = some a → Rep m x a G → ps[j]? = some (some c) → c ∉ G
  | [], _, _, h, _, i, j, a, c, x, G, _, hi, _, _ => by obtain ⟨rfl, -⟩ := h; simp at hi
  | x :: xs, _, _, h, hn, i, j, a, c, y, G, hij, hi, hr, hj => by
    obtain ⟨q, qs, F1, F2, rfl, rfl, h1, h2⟩ := h
    intro hc
    have h5 := rep_ge hr c hc
    have hd := List.nodup_append.1 hn
    cases i with
    | zero =>
      cases j with
      | zero => exact hij rfl
      | succ j =>
        simp at hi; subst hi
        obtain ⟨-, rfl⟩ := rep_det h1 hr
        exact hd.2.2 c hc c (repL_mem h2 (by simpa using hj) h5) rfl
    | succ i =>
      cases j with
      | zero =>
        simp at hj; subst hj
        exact hd.2.2 c (rep_mem h1 h5) c (repL_sub h2 (by simpa using hi) hr c hc) rfl
      | succ j => exact repL_apart h2 hd.2.1 (i := i) (j := j) (by omega) (by simpa using hi) hr (by simpa using hj) hc

theorem kids_repL {h : Heap} {p : Ptr} {ku : Bool} {kvs : List (Bytes × Val)} {F : List Ptr} (g : Good h (some p) (.obj ku kvs) F) :
    ∃ F0, F = p :: F0 ∧ p ∉ F0 ∧ F0.Nodup ∧ RepL h.mem (kvs.map Prod.snd) (Node.kids (h.mem p)) F0 := by
  obtain ⟨F0, rfl, h5, hdt, hk, hm, hp0, hn0, hav⟩ := g.obj_inv
  exact ⟨F0, rfl, hp0, hn0, by rw [kids_obj hdt]; exact (repM_iff.1 hm).2⟩

/-- What `SetKeyCached` leaves as it was. -/
theorem setKeyCached_rest (E : Env) {h h1 : Heap} {p q : Ptr} {ku : Bool} {kvs : List (Bytes × Val)} {F : List Ptr} (g : Good h (some p) (.obj ku kvs) F) (name : Bytes) (t : VT)
    (c : Option CId) (hc : ∀ d, c = some d → d < h.nextC) (e : setKeyCached E h p name t c = .ok (q, h1)) :
    (Avail h q ∨ (Node.kids (h.mem p))[objPos E ku kvs name]? = some (some q)) ∧
    (∀ j, j ≠ objPos E ku kvs name → (Node.kids (h1.mem p))[j]? = (Node.kids (h.mem p))[j]? ∨ (Node.kids (h.mem p)).length ≤ j ∧ (Node.kids (h1.mem p))[j]? = none) ∧
    (∀ r, r ≠ p → r ≠ q → ¬Avail h r → h1.mem r = h.mem r) ∧ h.nextC ≤ h1.nextC := by
  obtain ⟨F0, rfl, h5, hdt, hk, hm, hp0, hn0, hav⟩ := g.obj_inv
  have hkeys := (repM_iff.1 hm).1
  have hll := congrArg List.length hkeys
  simp only [List.length_map] at hll
  obtain ⟨hidx, u1, hC, -⟩ := objIndex_upd E g name
  unfold setKeyCached at e
  rw [if_neg (by simp [hdt]), if_pos hdt] at e
  have hpos : objPos E ku kvs name = ((objIndex E h p name).1).getD kvs.length := by rw [hidx]; rfl
  have hI : (objIndex E h p name).2 = h.set p { h.mem p with ku := (indexByName E (h.mem p).ku (h.mem p).kvs name).2.1, kvs := (indexByName E (h.mem p).ku (h.mem p).kvs name).2.2 } := rfl
  have hsnd := indexByName_snd E (h.mem p).ku (h.mem p).kvs name
  have hmem1 : (objIndex E h p name).2.mem p = { h.mem p with ku := (indexByName E (h.mem p).ku (h.mem p).kvs name).2.1, kvs := (indexByName E (h.mem p).ku (h.mem p).kvs name).2.2 } := by
    rw [hI]; simp
  have hmemo : ∀ r, r ≠ p → (objIndex E h p name).2.mem r = h.mem r := by
    intro r hr; rw [hI]; exact set_mem_ne _ _ hr
  have hav1 : ∀ r, Avail (objIndex E h p name).2 r → Avail h r := u1.frame.avail
  have hav2 : ∀ r, Avail h r → Avail (objIndex E h p name).2 r := by
    intro r hr; rw [hI]; exact hr
  have hc1 : ∀ d, c = some d → d < (objIndex E h p name).2.nextC := by rw [hC]; exact hc
  have I1 := u1.good.inv
  rw [kids_obj hdt, hpos]
  clear u1
  rw [← hC]
  rcases hoi : objIndex E h p name with ⟨i, h0⟩
  dsimp only at e
  rw [hoi] at e hpos hI hmem1 hmemo hav1 hav2 hc1 I1
  simp only at hpos hI hmem1 hmemo hav1 hav2 hc1 I1 e
  have hk0 : (h0.mem p).kvs.map Prod.snd = (h.mem p).kvs.map Prod.snd := by rw [hmem1]; exact hsnd
  have hd0 : (h0.mem p).dt = .object := by rw [hmem1]; exact hdt
  cases i with
  | none =>
    have A := getValue_spec I1 c t hc1
    generalize getValue h0 c t = gv at A e
    obtain ⟨q', h2⟩ := gv
    simp only [Res.ok.injEq, Prod.mk.injEq] at e
    obtain ⟨rfl, rfl⟩ := e
    simp only at A
    have hp2 : h2.mem p = h0.mem p := A.mem p (fun x => hav (hav1 p x))
    refine ⟨Or.inl (hav1 _ A.was), ?_, ?_, A.nextC⟩
    · intro j hj
      simp only [Option.getD_none] at hj
      have hkd : Node.kids ((h2.upd p (fun n => { n with kvs := n.kvs ++ [(name, some q')] })).mem p) = (h.mem p).kvs.map Prod.snd ++ [some q'] := by
        rw [kids_obj (by simp [hp2, hd0])]
        simp [hp2, hk0]
      rw [hkd]
      rcases Nat.lt_or_ge j kvs.length with hlt | hge
      · left; rw [List.getElem?_append_left (by simp; omega)]
      · right
        refine ⟨by simp; omega, ?_⟩
        rw [List.getElem?_eq_none_iff]; simp; omega
    · intro r hrp hrq hra
      rw [upd_mem_ne _ _ hrp, A.mem r (fun x => hra (hav1 r x)), hmemo r hrp]
  | some i =>
    simp only [Option.getD_some]
    dsimp only at e
    split at e
    · cases e
    · rename_i q0 hq0
      have hkq : ((h.mem p).kvs.map Prod.snd)[i]? = some (some q0) := by
        rw [← hk0, List.getElem?_map]
        cases hx : (h0.mem p).kvs[i]? with
        | none => rw [hx] at hq0; cases hq0
        | some kv => rw [hx] at hq0; simp at hq0; simp [hq0]
      split at e
      · have A := getValue_spec I1 c t hc1
        generalize getValue h0 c t = gv at A e
        obtain ⟨q', h2⟩ := gv
        simp only [Res.ok.injEq, Prod.mk.injEq] at e
        obtain ⟨rfl, rfl⟩ := e
        simp only at A
        have hp2 : h2.mem p = h0.mem p := A.mem p (fun x => hav (hav1 p x))
        refine ⟨Or.inl (hav1 _ A.was), ?_, ?_, A.nextC⟩
        · intro j hj
          left
          have hkd : Node.kids ((h2.upd p (fun n => { n with kvs := n.kvs.modify i (fun kv => (kv.1, some q')) })).mem p) = ((h.mem p).kvs.map Prod.snd).set i (some q') := by
            rw [kids_obj (by simp [hp2, hd0])]
            simp only [upd_mem_same, hp2, modify_snd, hk0]
          rw [hkd, List.getElem?_set_ne (Ne.symm hj)]
        · intro r hrp hrq hra
          rw [upd_mem_ne _ _ hrp, A.mem r (fun x => hra (hav1 r x)), hmemo r hrp]
      · rename_i hsh
        have hne : q0 ≠ p := by
          rintro rfl
          exact hp0 (repL_mem (repM_iff.1 hm).2 hkq h5)
        split at e
        · simp only [Res.ok.injEq, Prod.mk.injEq] at e
          obtain ⟨rfl, rfl⟩ := e
          refine ⟨Or.inr hkq, ?_, ?_, by first | exact Nat.le_refl _ | (rw [reset_nextC]; exact Nat.le_refl _)⟩
          · intro j hj
            left
            rw [reset_mem_ne (Ne.symm hne), kids_obj hd0, hk0]
          · intro r hrp hrq hra
            rw [reset_mem_ne hrq, hmemo r hrp]
        · simp only [Res.ok.injEq, Prod.mk.injEq] at e
          obtain ⟨rfl, rfl⟩ := e
          refine ⟨Or.inr hkq, ?_, ?_, by first | exact Nat.le_refl _ | (rw [reset_nextC]; exact Nat.le_refl _)⟩
          · intro j hj
            left
            rw [kids_obj hd0, hk0]
          · intro r hrp hrq hra
            rw [hmemo r hrp]

/-! ## What is kept -/

/-- The nodes `Z` are as before. -/
def Kept (Z : Ptr → Prop) (h h' : Heap) : Prop := ∀ r, Z r → h'.mem r = h.mem r ∧ ¬Avail h' r

/-- The nodes `Z` are in use. -/
def Used (Z : Ptr → Prop) (h : Heap) : Prop := ∀ r, Z r → 5 ≤ r ∧ ¬Avail h r

theorem _root_.Dxs.Heap.Good.keep {h h' : Heap} {a : Option Ptr} {v : Val} {G : List Ptr} (g : Good h a v G) {Z : Ptr → Prop} (hk : Kept Z h h') (hG : ∀ q ∈ G, Z q) (I : Heap.Inv h') : Good h' a v G where
  inv := I
  rep := rep_frame g.rep ⟨fun q hq => (hk q (hG q hq)).1, fun _ hp => g.inv.dt_const I hp⟩
  nodup := g.nodup
  live q hq := (hk q (hG q hq)).2

/-- Every anchor has its node; the nodes of its value are in `Z`. -/
def Anch (E : Env) (Z : Ptr → Prop) (h : Heap) (uses : List (Bytes × Ptr)) (sc : Scope) : Prop :=
  ∀ n y, (List.find? (fun kv => kv.1 == n) sc).map Prod.snd = some y → ∃ u x G, getUse n uses = some u ∧ Good h (some u) x G ∧ Is E y x ∧ ∀ q ∈ G, Z q

theorem Anch.keep {E : Env} {Z : Ptr → Prop} {h h' : Heap} {uses : List (Bytes × Ptr)} {sc : Scope} (a : Anch E Z h uses sc) (hk : Kept Z h h') (I : Heap.Inv h') {Z' : Ptr → Prop}
    (hZ : ∀ q, Z q → Z' q) : Anch E Z' h' uses sc := by
  intro n y hy
  obtain ⟨u, x, G, h1, h2, h3, h4⟩ := a n y hy
  exact ⟨u, x, G, h1, h2.keep hk h4 I, h3, fun q hq => hZ q (h4 q hq)⟩

theorem getUse_set (name : Bytes) (v : Ptr) : ∀ (l : List (Bytes × Ptr)) (n : Bytes), getUse n (setUse name v l) = if name = n then some v else getUse n l
  | [], n => by
    by_cases h : name = n <;> simp [setUse, getUse, h]
  | (k, w) :: r, n => by
    have ih := getUse_set name v r n
    unfold setUse
    by_cases hk : k = name
    · subst hk
      by_cases h : k = n <;> simp [getUse, h]
    · rw [if_neg hk]
      unfold getUse at ih ⊢
      by_cases h : k = n
      · subst h
        simp [Ne.symm hk]
      · have : (k == n) = false := by simpa using h
        simp only [List.find?_cons, this]
        exact ih

theorem Anch.set {E : Env} {Z : Ptr → Prop} {h : Heap} {uses : List (Bytes × Ptr)} {sc : Scope} (a : Anch E Z h uses sc) {n : Bytes} {y : YV} {u : Ptr} {x : Val} {G : List Ptr}
    (g : Good h (some u) x G) (hi : Is E y x) (hG : ∀ q ∈ G, Z q) : Anch E Z h (setUse n u uses) ((n, y) :: sc) := by
  intro n' y' hy
  rw [getUse_set]
  simp only [List.find?_cons] at hy
  by_cases h : n = n'
  · subst h
    simp at hy
    subst hy
    exact ⟨u, x, G, by simp, g, hi, hG⟩
  · have h' : (n == n') = false := by simpa using h
    rw [h'] at hy
    rw [if_neg h]
    exact a n' y' hy

theorem find_filter {sc : Scope} {n n' : Bytes} {y : YV} (h : (List.find? (fun kv => kv.1 == n') (sc.filter (fun kv => kv.1 != n))).map Prod.snd = some y) :
    n' ≠ n ∧ (List.find? (fun kv => kv.1 == n') sc).map Prod.snd = some y := by
  induction sc with
  | nil => simp at h
  | cons x r ih =>
    obtain ⟨k, w⟩ := x
    by_cases hk : k = n
    · subst hk
      simp only [List.filter_cons, bne_self_eq_false, Bool.false_eq_true, if_false] at h
      obtain ⟨h1, h2⟩ := ih h
      refine ⟨h1, ?_⟩
      have : (k == n') = false := by simpa using Ne.symm h1
      simp only [List.find?_cons, this]
      exact h2
    · have hb : (k != n) = true := by simpa using hk
      simp only [List.filter_cons, hb, if_true, List.find?_cons] at h ⊢
      by_cases he : k = n'
      · subst he
        simp at h ⊢
        exact ⟨hk, h⟩
      · have : (k == n') = false := by simpa using he
        rw [this] at h ⊢
        exact ih h

/-- The children of `p` that are anchored have names of entries. -/
def Clear (E : Env) (Z : Ptr → Prop) (h : Heap) (p : Ptr) (l : List (Bytes × Val)) (names : List Bytes) : Prop :=
  ∀ (i : Nat) (kv : Bytes × Val) (c : Ptr), l[i]? = some kv → (Node.kids (h.mem p))[i]? = some (some c) → Z c → ∃ k ∈ names, E.keyMatch kv.1 k = true

theorem match_refl (E : Env) (k : Bytes) : E.keyMatch k k = true := by simp [Env.keyMatch]

theorem put_other {m : Bytes → Bytes → Bool} {α : Type} (l : List (Bytes × α)) (k : Bytes) (w : α) (j : Nat) (hj : j ≠ (l.findIdx? (fun kv => m kv.1 k)).getD l.length) :
    (Assoc.put m l k w)[j]? = l[j]? := by
  rw [Assoc.put_findIdx]
  cases hf : l.findIdx? (fun kv => m kv.1 k) with
  | none =>
    rw [hf] at hj
    simp only [Option.getD_none] at hj
    dsimp only
    rcases Nat.lt_or_ge j l.length with h | h
    · rw [List.getElem?_append_left h]
    · rw [List.getElem?_eq_none_iff.mpr (by simp; omega), List.getElem?_eq_none_iff.mpr h]
  | some i =>
    rw [hf] at hj
    simp only [Option.getD_some] at hj
    dsimp only
    rw [List.getElem?_modify]
    simp [Ne.symm hj]

theorem put_at {E : Env} (l : List (Bytes × Val)) (k : Bytes) (w : Val) {kv : Bytes × Val} (h : (Assoc.put E.keyMatch l k w)[(l.findIdx? (fun kv => E.keyMatch kv.1 k)).getD l.length]? = some kv) :
    E.keyMatch kv.1 k = true := by
  rw [Assoc.put_findIdx] at h
  cases hf : l.findIdx? (fun kv => E.keyMatch kv.1 k) with
  | none =>
    rw [hf] at h
    simp at h
    subst h
    exact match_refl E k
  | some i =>
    rw [hf] at h
    simp only [Option.getD_some, List.getElem?_modify] at h
    obtain ⟨hlt, hm, -⟩ := List.findIdx?_eq_some_iff_getElem.1 hf
    simp [List.getElem?_eq_getElem hlt] at h
    subst h
    exact hm

/-- `SetKeyCached` with the name of a new entry, followed by an action on the node it returned. -/
theorem put_step {E : Env} (L : KeyLaws E) {s : St} {p : Ptr} {ku : Bool} {kvs : List (Bytes × Val)} {F : List Ptr} {l0 : List (Bytes × Val)} {names : List Bytes} {Z : Ptr → Prop}
    (g : Good s.h (some p) (.obj ku kvs) F) (H : Holds E (.obj ku kvs) l0) (hc : ∀ d, s.p.cache = some d → d < s.h.nextC) (k : Bytes) (t : VT)
    (hnew : ∀ k' ∈ names, E.keyMatch k' k = false) (hp : ¬Z p) (hU : Used Z s.h) (hC : Clear E Z s.h p l0 names) :
    ∃ q h1 w Fq, putKey E s p k t = .ok (q, { s with h := h1 }) ∧ 5 ≤ q ∧ Slot t (objOld E ku kvs k) w ∧ Good h1 (some q) w Fq ∧ ¬Z q ∧ Kept Z s.h h1 ∧
      (∀ c, Avail h1 c → Avail s.h c) ∧ s.h.nextC ≤ h1.nextC ∧ (∀ r, r ∈ Fq ∨ Avail h1 r → r ≠ p ∧ (r ∈ F ∨ Avail s.h r)) ∧
      ∀ h2 w' Fq', Upd h1 Fq h2 (some q) w' Fq' → Kept Z h1 h2 → ∃ F', Upd s.h F h2 (some p) (objPut E ku kvs k w') F' ∧ Kept Z s.h h2 ∧
        ∀ Z' : Ptr → Prop, (∀ r, Z' r → Z r ∨ r ∈ Fq ∨ Avail h1 r) → Clear E Z' h2 p (Assoc.put E.keyMatch l0 k w') (k :: names) := by
  have hnil : objOld E ku kvs k ≠ some .nil := noNil_old (noNil_kvs (by rw [H.mem]; exact H.noNil)) k
  obtain ⟨q, h1, w, F1, he, u, hk, h5, hs⟩ := setKeyCached_obj E g k t s.p.cache hc hnil
  obtain ⟨hq, hkids, hrest, hnC⟩ := setKeyCached_rest E g k t s.p.cache hc he
  have hkid : ∀ j c, j ≠ objPos E ku kvs k → (Node.kids (h1.mem p))[j]? = some (some c) → (Node.kids (s.h.mem p))[j]? = some (some c) := by
    intro j c hj hjc
    rcases hkids j hj with e | ⟨-, e⟩
    · rw [← e]; exact hjc
    · rw [e] at hjc; cases hjc
  obtain ⟨b, Fq, hb, gq, hFq, hupd⟩ := u.good.kid (kids_objPut E ku kvs k w)
  rw [hk] at hb
  cases hb
  have hpos : objPos E ku kvs k = (l0.findIdx? (fun kv => E.keyMatch kv.1 k)).getD l0.length := by
    have hl : kvs.length = l0.length := by
      rw [← H.mem, members_obj]
      unfold unescKeys
      split <;> simp
    unfold objPos
    rw [indexByName_members L ku kvs (by rw [H.mem]; exact H.unique), H.mem, hl]
  have hZq : ¬Z q := by
    rcases hq with hq | hq
    · exact fun hz => (hU q hz).2 hq
    · intro hz
      rw [hpos] at hq
      cases hf : l0.findIdx? (fun kv => E.keyMatch kv.1 k) with
      | none =>
        rw [hf, Option.getD_none] at hq
        obtain ⟨F0, -, -, -, hrl⟩ := kids_repL g
        have hlen := repL_length hrl
        have hl : kvs.length = l0.length := by
          rw [← H.mem, members_obj]
          unfold unescKeys
          split <;> simp
        have := (List.getElem?_eq_some_iff.1 hq).1
        simp at hlen
        omega
      | some i =>
        rw [hf, Option.getD_some] at hq
        obtain ⟨hlt, hm, -⟩ := List.findIdx?_eq_some_iff_getElem.1 hf
        obtain ⟨k', hk', hmm⟩ := hC i _ q (List.getElem?_eq_getElem hlt) hq hz
        have := hnew k' hk'
        rw [L.match_trans (L.match_symm hmm) hm] at this
        cases this
  have hK1 : Kept Z s.h h1 := by
    intro r hr
    refine ⟨hrest r (by rintro rfl; exact hp hr) (by rintro rfl; exact hZq hr) (hU r hr).2, fun ha => (hU r hr).2 (u.frame.avail r ha)⟩
  have hpg : Good h1 (some p) (objPut E ku kvs k w) F1 := u.good
  unfold objPut at hpg
  obtain ⟨F0, hF1, hp0, hn0, hrl⟩ := kids_repL hpg
  have hFq0 : ∀ r ∈ Fq, r ∈ F0 := repL_sub hrl hk gq.rep
  have h5p : 5 ≤ p := by obtain ⟨_, _, h5, _⟩ := g.obj_inv; exact h5
  have hpl : ¬Avail h1 p := fun ha => g.live p (rep_mem g.rep h5p) (u.frame.avail p ha)
  refine ⟨q, h1, w, Fq, ?_, h5, hs, gq, hZq, hK1, u.frame.avail, hnC, ?_, ?_⟩
  · unfold putKey; rw [he]; rfl
  · rintro r (hr | hr)
    · refine ⟨by rintro rfl; exact hp0 (hFq0 r hr), ?_⟩
      rcases u.sub r (by rw [hF1]; exact List.mem_cons_of_mem _ (hFq0 r hr)) with h | h | h
      · exact Or.inl h
      · cases h
      · exact Or.inr h
    · exact ⟨by rintro rfl; exact hpl hr, Or.inr (u.frame.avail r hr)⟩
  intro h2 w' Fq' u2 hK2
  obtain ⟨F', u3⟩ := hupd [] h2 w' Fq' u2 (by simp)
  rw [setKid_objPut] at u3
  have hpm : h2.mem p = h1.mem p := u2.frame.mem p h5p (fun x => hp0 (hFq0 p x)) hpl
  refine ⟨F', UpdX.trans u u3, ?_, ?_⟩
  · intro r hr
    exact ⟨(hK2 r hr).1.trans (hK1 r hr).1, (hK2 r hr).2⟩
  · intro Z' hZ' i kv c hi hic hz
    by_cases hip : i = objPos E ku kvs k
    · rw [hip, hpos] at hi
      exact ⟨k, List.mem_cons_self, put_at l0 k w' hi⟩
    · rw [put_other l0 k w' i (by rw [← hpos]; exact hip)] at hi
      rw [hpm] at hic
      rcases hZ' c hz with hz | hz | hz
      · obtain ⟨k', hk', hm⟩ := hC i kv c hi (hkid i c hip hic) hz
        exact ⟨k', List.mem_cons_of_mem _ hk', hm⟩
      · exact absurd hz (repL_apart hrl hn0 (Ne.symm hip) hk gq.rep hic)
      · exact absurd hz (u.good.live c (by rw [hF1]; exact List.mem_cons_of_mem _ (repL_mem hrl hic (u.frame.inv.avail_ge hz))))

/-! ## Lines -/

theorem PlainLine.entry {k v : Bytes} (p : PlainLine k v) : EntryLine k v := ⟨p.key, p.val, p.colon, p.nl, p.comment, p.khead, p.merge⟩

theorem splitKv_any {k v : Bytes} (hk : Neat k) (hv : Neat v) (hc : 58 ∉ k) : splitKv (k ++ [58, 32] ++ v) = (k, v, true) := by
  have ht : trim (k ++ [58, 32] ++ v) = k ++ [58, 32] ++ v := trim_neat (neat_append hk hv)
  have hi : (k ++ [58, 32] ++ v).findIdx? (· == 58) = some k.length := by
    rw [List.append_assoc]; exact findIdx_key hc
  unfold splitKv
  simp only [ht, hi]
  have hvn := neat_ne hv
  have hvl : 0 < v.length := List.length_pos_iff.mpr hvn
  rw [if_pos (by simp), if_pos (by simp)]
  have e1 : (k ++ [58, 32] ++ v).take k.length = k := by rw [List.append_assoc]; simp
  have e2 : (k ++ [58, 32] ++ v).drop (k.length + 2) = v := by
    rw [show k.length + 2 = (k ++ [58, 32]).length by simp]; simp
  rw [e1, e2, trim_neat hk, trim_neat hv]

/-- An entry with a value, at the object `p`. -/
theorem obj_any (E : Env) (pick : Heap → Option Nat) (f : Nat) {s : St} {spp : Int} {p : Ptr} {below : List YNode} (hs : s.p.stack = ⟨false, spp, p⟩ :: below)
    (hdt : (s.h.mem p).dt = .object) {k v : Bytes} (pl : EntryLine k v) (ind : Int) :
    parseObject E pick f (k ++ [58, 32] ++ v) ind s =
      (if s.p.last < ind then objMember E f k v p { s with p := { s.p with first := false } }
        else (putKey E { s with p := { s.p with first := false } } p k .string).bind (fun x => (strVal1 E f x.2 x.1 v).bind (fun s => .ok (x.1, s)))).bind
        (fun x => .ok (push x.2 false ind x.1)) := by
  obtain ⟨⟨first, useCache, last, root, cache, stack, uses⟩, h⟩ := s
  dsimp only at hs hdt
  subst hs
  have hkn := neat_ne pl.key
  have hvn := neat_ne pl.val
  unfold parseObject
  simp only [List.cons_ne_nil, if_false, List.head?_cons, splitKv_any pl.key pl.val pl.colon, false_and, Bool.false_eq_true, and_false]
  by_cases h1 : last = ind
  · subst h1
    rw [if_pos rfl, if_neg (by omega)]
    unfold objSame
    rw [if_neg (by simp [hkn]), mergeRef_no pl.merge]
    simp only [bind, Res.bind, Bool.false_eq_true, if_false, ne_eq, hvn, not_false_eq_true, if_true]
    rcases putKey E _ p k .string with ⟨q, s1⟩ | _ | _ | _ <;> simp only
    rcases strVal1 E f s1 q v with s2 | _ | _ | _ <;> rfl
  rw [if_neg h1]
  by_cases h2 : ind > last
  · rw [if_pos h2, if_pos (by omega)]
    unfold objChild
    rw [if_neg hkn]
    dsimp only
    rw [if_pos hdt, mergeRef_no pl.merge]
    simp only [bind, Res.bind, Bool.false_eq_true, if_false]
  · rw [if_neg h2, if_neg (by omega)]
    unfold objBack
    rw [if_neg (by simp [hkn, hdt]), if_neg hvn, mergeRef_no pl.merge]
    simp only [bind, Res.bind, Bool.false_eq_true, if_false]
    rcases putKey E _ p k .string with ⟨q, s1⟩ | _ | _ | _ <;> simp only
    rcases strVal1 E f s1 q v with s2 | _ | _ | _ <;> rfl

/-- The state in which the value of an entry is made. -/
abbrev atEntry (s : St) (spp : Int) (p : Ptr) (below : List YNode) : St := { s with p := { s.p with first := false, stack := ⟨false, spp, p⟩ :: below } }

/-- The state after an entry. -/
abbrev endEntry (s : St) (ind : Nat) (spp : Int) (p : Ptr) (below : List YNode) (q : Ptr) (uses : List (Bytes × Ptr)) (h : Heap) : St :=
  { p := { s.p with first := false, stack := ⟨false, ind, q⟩ :: ⟨false, spp, p⟩ :: below, last := ind, uses := uses }, h := h }

theorem line_any (E : Env) (pick : Heap → Option Nat) (f : Nat) {s : St} {ind : Nat} {spp : Int} {p : Ptr} {below : List YNode} (hp : Pos s ind spp p below)
    (hdt : (s.h.mem p).dt = .object) {k v : Bytes} (pl : EntryLine k v) {q : Ptr} {uses : List (Bytes × Ptr)} {h2 : Heap}
    (e : (if s.p.last < ind then objMember E f k v p (atEntry s spp p below)
        else (putKey E (atEntry s spp p below) p k .string).bind (fun x => (strVal1 E f x.2 x.1 v).bind (fun s => .ok (x.1, s)))) =
          .ok (q, { p := { (atEntry s spp p below).p with uses := uses }, h := h2 })) :
    parseLine E pick f (List.replicate ind 32 ++ (k ++ [58, 32] ++ v)) ind s = .ok (endEntry s ind spp p below q uses h2) := by
  obtain ⟨c, h1, -, h35, h45⟩ := entry_head pl.key pl.khead ([58, 32] ++ v)
  have hl : 1 < (k ++ [58, 32] ++ v).length := by simp; omega
  have hcut : cutComment (k ++ [58, 32] ++ v) = k ++ [58, 32] ++ v := by simpa using cut_cmt pl.comment hl (c := []) (Or.inl rfl)
  rw [parseLine_at hp (by simpa using h1) h35 h45 hcut, obj_any E pick f (s := { s with p := { s.p with stack := ⟨false, spp, p⟩ :: below } }) rfl hdt pl]
  rw [e]
  rfl

theorem foot_str {m : Ptr → Node} {q : Ptr} {w : Bytes} {F : List Ptr} (h : Rep m (.str w) (some q) F) (h5 : 5 ≤ q) : F = [q] := by
  obtain ⟨p', e, rfl, -⟩ := h
  cases e
  unfold foot
  rw [if_neg (by simp; omega)]

theorem slot_str {old : Option Val} {w : Val} (h : Slot .string old w) : ∃ s0, w = .str s0 := by
  have hwv := h.vt
  cases w <;> simp [Val.vt] at hwv <;> exact ⟨_, rfl⟩

theorem kept_frame {Z : Ptr → Prop} {h h' : Heap} {R : List Ptr} (f : Frame h R h') (hU : Used Z h) (hR : ∀ r ∈ R, ¬Z r) : Kept Z h h' := fun r hr =>
  ⟨f.mem r (hU r hr).1 (fun hm => hR r hm hr) (hU r hr).2, fun ha => (hU r hr).2 (f.avail r ha)⟩

theorem Used.kept {Z : Ptr → Prop} {h h' : Heap} (hU : Used Z h) (hK : Kept Z h h') : Used Z h' := fun r hr => ⟨(hU r hr).1, (hK r hr).2⟩

/-- What an entry does: the object `p` has one more member `k`; nodes `Y` may be anchored now. -/
structure Entry (E : Env) (Z Y : Ptr → Prop) (h h2 : Heap) (p : Ptr) (ku : Bool) (kvs : List (Bytes × Val)) (F : List Ptr) (l0 : List (Bytes × Val)) (names : List Bytes)
    (k : Bytes) (w : Val) (F' : List Ptr) : Prop where
  upd : Upd h F h2 (some p) (objPut E ku kvs k w) F'
  kept : Kept Z h h2
  own : ∀ r, Y r → r ≠ p ∧ (r ∈ F ∨ Avail h r)
  clear : ∀ Z' : Ptr → Prop, (∀ r, Z' r → Z r ∨ Y r) → Clear E Z' h2 p (Assoc.put E.keyMatch l0 k w) (k :: names)

theorem strVal2_plain (E : Env) (f : Nat) (s : St) {t : Ptr} {v : Bytes} (hn : v ≠ []) (hv : v.head? ≠ some 38 ∧ v.head? ≠ some 42 ∧ v.head? ≠ some 123 ∧ v.head? ≠ some 91)
    {w0 : Bytes} {F : List Ptr} (g : Good s.h (some t) (.str w0) F) (h5 : 5 ≤ t) :
    ∃ h', strVal2 E f s t v = .ok { s with h := h' } ∧ Upd s.h F h' (some t) (scalar E v) [t] := by
  unfold strVal2 strVal scalar
  have e : trueBytes = [116, 114, 117, 101] := rfl
  rw [e]
  split
  · exact ⟨_, rfl, setBool_upd g h5 true⟩
  split
  · exact ⟨_, rfl, setBool_upd g h5 false⟩
  rcases hp : E.parseFloat v with _ | x
  rotate_left
  · exact ⟨_, rfl, by have := setDouble_upd g h5 x; simpa [Val.vt] using this⟩
  · rcases hc : v.head? with _ | c
    · exact absurd (List.head?_eq_none_iff.mp hc) hn
    · rw [hc] at hv
      simp only [ne_eq, Option.some.injEq] at hv
      dsimp only
      rw [if_neg (fun h => hv.2.2.1 h.1), if_neg (fun h => hv.2.2.2 h.1), if_neg hv.1]
      split
      · exact absurd ‹_› hv.2.1
      · exact ⟨_, rfl, setString_upd g h5 v⟩

theorem findIdx_name {n : Bytes} (h : 32 ∉ n) (t : Bytes) : (n ++ 32 :: t).findIdx? (· == 32) = some n.length := by
  induction n with
  | nil => rfl
  | cons c r ih =>
    simp only [List.mem_cons, not_or] at h
    have hc : (c == 32) = false := by simpa using Ne.symm h.1
    simp only [List.cons_append, List.findIdx?_cons, hc]
    rw [ih h.2]
    simp

theorem findIdx_name_none {n : Bytes} (h : 32 ∉ n) : n.findIdx? (· == 32) = none := by
  rw [List.findIdx?_eq_none_iff]
  intro c hc
  simp only [beq_eq_false_iff_ne, ne_eq]
  rintro rfl
  exact h hc

theorem refName_star {n : Bytes} (h : 32 ∉ n) : refName (42 :: n) = n := by
  unfold refName
  rw [List.drop_succ_cons, List.drop_zero]
  induction n with
  | nil => rfl
  | cons c r ih =>
    simp only [List.mem_cons, not_or] at h
    rw [List.takeWhile_cons, if_pos (by simpa using Ne.symm h.1), ih h.2]

/-- `&n v` -/
theorem strVal1_anchor {E : Env} (N : NumLaw E) (f : Nat) (s : St) (t : Ptr) {n v : Bytes} (hn : AName n) (hv : Neat v) :
    strVal1 E f s t (38 :: (n ++ 32 :: v)) = strVal2 E f { s with p := { s.p with uses := setUse n t s.p.uses } } t v := by
  have hi : (38 :: (n ++ 32 :: v)).findIdx? (· == (32 : UInt8)) = some (n.length + 1) := by
    rw [List.findIdx?_cons, findIdx_name hn.2.1]; rfl
  have h1 : ((38 :: (n ++ 32 :: v)).take (n.length + 1)).drop 1 = n := by simp
  have h2 : (38 :: (n ++ 32 :: v)).drop (n.length + 1 + 1) = v := by
    rw [List.drop_succ_cons, ← List.drop_drop]; simp
  unfold strVal1 strVal
  rw [if_neg (by simp [trueBytes]), if_neg (by simp), N _ (Or.inl rfl)]
  simp only [List.head?_cons, hi, h1, h2, trim_neat hv, if_neg (neat_ne hv)]
  simp

/-- `*n` -/
theorem strVal1_alias {E : Env} (N : NumLaw E) (f : Nat) (s : St) (t : Ptr) {n : Bytes} (hn : AName n) {u : Ptr} (hu : getUse n s.p.uses = some u) :
    strVal1 E f s t (42 :: n) = (copyFrom f s.h t (some u) s.p.cache).bind (fun h => .ok { s with h := h }) := by
  unfold strVal1 strVal
  rw [if_neg (by simp [trueBytes]), if_neg (by simp), N _ (Or.inr rfl)]
  simp only [List.head?_cons, refName_star hn.2.1, hu]
  simp
  rfl

section
variable {E : Env} (L : KeyLaws E) (N : NumLaw E) (pick : Heap → Option Nat) (f : Nat) {s : St} {ind : Nat} {spp : Int} {p : Ptr} {below : List YNode} (hp : Pos s ind spp p below)
  {ku : Bool} {kvs : List (Bytes × Val)} {F : List Ptr} {l0 : List (Bytes × Val)} {names : List Bytes} {Z : Ptr → Prop} (g : Good s.h (some p) (.obj ku kvs) F)
  (H : Holds E (.obj ku kvs) l0) (hc : ∀ d, s.p.cache = some d → d < s.h.nextC) (hZp : ¬Z p) (hU : Used Z s.h) (hC : Clear E Z s.h p l0 names)
include L hp g H hc hZp hU hC

/-- A line `k: v`. -/
theorem leaf_step {k v : Bytes} (pl : PlainLine k v) (hnew : ∀ k' ∈ names, E.keyMatch k' k = false) :
    ∃ q h2 F', parseLine E pick f (List.replicate ind 32 ++ (k ++ [58, 32] ++ v)) ind s = .ok (endEntry s ind spp p below q s.p.uses h2) ∧
      Entry E Z (· = q) s.h h2 p ku kvs F l0 names k (scalar E v) F' := by
  obtain ⟨q, h1, w, Fq, e1, h5, hsl, gq, hZq, hK1, ha, hn, hown, hupd⟩ := put_step L (s := atEntry s spp p below) g H hc k .string hnew hZp hU hC
  obtain ⟨s0, rfl⟩ := slot_str hsl
  cases foot_str gq.rep h5
  obtain ⟨h2, e2, u2⟩ := strVal1_plain E f { atEntry s spp p below with h := h1 } (neat_ne pl.val) pl.vhead gq h5
  have hK2 := kept_frame u2.frame (hU.kept hK1) (by simpa using hZq)
  obtain ⟨F', u, hK, hcl⟩ := hupd h2 _ _ u2 hK2
  refine ⟨q, h2, F', line_any E pick f hp (rep_dt g.rep) pl.entry ?_, ⟨u, hK, fun r hr => hown r (Or.inl (by simp [hr])), fun Z' hZ' => hcl Z' (fun r hr => (hZ' r hr).imp id (fun h => Or.inl (by simp [h])))⟩⟩
  have h38 := pl.vhead.1
  have h42 := pl.vhead.2.1
  split
  · unfold objMember
    rcases hv : v.head? with _ | c
    · exact absurd (List.head?_eq_none_iff.mp hv) (neat_ne pl.val)
    · rw [hv] at h38 h42
      simp only [ne_eq, Option.some.injEq] at h38 h42
      simp only [if_neg h38, if_neg h42, bind]
      rw [e1]
      simp only [Res.bind]
      rw [e2]
  · rw [e1]
    simp only [Res.bind]
    rw [e2]

include N

/-- A line `k: &n v`. -/
theorem anchor_step {k n v : Bytes} (pl : PlainLine k v) (hnm : AName n) (pe : EntryLine k (38 :: (n ++ 32 :: v))) (hnew : ∀ k' ∈ names, E.keyMatch k' k = false) :
    ∃ q h2 F', parseLine E pick f (List.replicate ind 32 ++ (k ++ [58, 32] ++ (38 :: (n ++ 32 :: v)))) ind s = .ok (endEntry s ind spp p below q (setUse n q s.p.uses) h2) ∧
      Entry E Z (· = q) s.h h2 p ku kvs F l0 names k (scalar E v) F' ∧ Good h2 (some q) (scalar E v) [q] := by
  obtain ⟨q, h1, w, Fq, e1, h5, hsl, gq, hZq, hK1, ha, hn, hown, hupd⟩ := put_step L (s := atEntry s spp p below) g H hc k .string hnew hZp hU hC
  obtain ⟨s0, rfl⟩ := slot_str hsl
  cases foot_str gq.rep h5
  by_cases hlt : s.p.last < ind
  · obtain ⟨h2, e2, u2⟩ := strVal1_plain E f { atEntry s spp p below with h := h1 } (neat_ne pl.val) pl.vhead gq h5
    have hK2 := kept_frame u2.frame (hU.kept hK1) (by simpa using hZq)
    obtain ⟨F', u, hK, hcl⟩ := hupd h2 _ _ u2 hK2
    refine ⟨q, h2, F', line_any E pick f hp (rep_dt g.rep) pe ?_, ⟨u, hK, fun r hr => hown r (Or.inl (by simp [hr])), fun Z' hZ' => hcl Z' (fun r hr => (hZ' r hr).imp id (fun h => Or.inl (by simp [h])))⟩, u2.good⟩
    rw [if_pos hlt]
    unfold objMember
    simp only [List.head?_cons, if_true, List.drop_succ_cons, List.drop_zero, findIdx_name hnm.2.1, Option.getD_some, List.length_pos_iff.mpr hnm.1,
      List.take_left, List.drop_left, trim_sp pl.val, if_neg (neat_ne pl.val), bind]
    rw [e1]
    simp only [Res.bind]
    rw [e2]
  · obtain ⟨h2, e2, u2⟩ := strVal2_plain E f { p := { (atEntry s spp p below).p with uses := setUse n q s.p.uses }, h := h1 } (neat_ne pl.val) pl.vhead gq h5
    have hK2 := kept_frame u2.frame (hU.kept hK1) (by simpa using hZq)
    obtain ⟨F', u, hK, hcl⟩ := hupd h2 _ _ u2 hK2
    refine ⟨q, h2, F', line_any E pick f hp (rep_dt g.rep) pe ?_, ⟨u, hK, fun r hr => hown r (Or.inl (by simp [hr])), fun Z' hZ' => hcl Z' (fun r hr => (hZ' r hr).imp id (fun h => Or.inl (by simp [h])))⟩, u2.good⟩
    rw [if_neg hlt, e1]
    simp only [Res.bind]
    rw [strVal1_anchor N f _ q hnm pl.val, e2]

/-- A line `k: *n`. -/
theorem alias_step {k n : Bytes} (hnm : AName n) (pe : EntryLine k (42 :: n)) (hnew : ∀ k' ∈ names, E.keyMatch k' k = false) (hfst : s.p.last < ind → l0 = [])
    {y : YV} {u : Ptr} {x : Val} {G : List Ptr} (hu : getUse n s.p.uses = some u) (gu : Good s.h (some u) x G) (hi : Is E y x) (hG : ∀ q ∈ G, Z q) (hb : y.noBool = true)
    (hf : y.height ≤ f) :
    ∃ q h2 F', parseLine E pick f (List.replicate ind 32 ++ (k ++ [58, 32] ++ (42 :: n))) ind s = .ok (endEntry s ind spp p below q s.p.uses h2) ∧
      Entry E Z (fun _ => False) s.h h2 p ku kvs F l0 names k (cloneVal x) F' := by
  by_cases hlt : s.p.last < ind
  · cases hfst hlt
    have hk : kvs = [] := by
      have := H.mem
      rw [members_obj] at this
      unfold unescKeys at this
      split at this <;> simpa using this
    subst hk
    have hcl := gu.clone f s.p.cache hc (is_copyable hi hb gu.rep)
    have hh := is_height hi
    rcases hr : clone f s.h (some u) s.p.cache with ⟨q, h1⟩ | _ | _ | _
    rotate_left
    · rw [hr] at hcl; exact hcl.elim
    · rw [hr] at hcl
      have : noNil x = false := hcl
      rw [is_full hi] at this
      cases this
    · rw [hr] at hcl
      have : f < Heap.height x := hcl
      omega
    rw [hr] at hcl
    obtain ⟨-, G', hm⟩ := hcl
    have g1 : Good h1 (some p) (.obj ku []) F := g.frame hm.frame (by simp)
    obtain ⟨F', u2⟩ := setKeyValue_obj E g1 k hm.good (by
      intro r hr hrF
      exact g.live r hrF (hm.fresh r hr))
    obtain ⟨F0, hF, hp0, hn0, hrl⟩ := kids_repL g
    have hF0 : F0 = [] := by
      simp [RepL] at hrl
      exact hrl.2
    subst hF0
    have hK1 : Kept Z s.h h1 := kept_frame hm.frame hU (by simp)
    have hK2 := kept_frame u2.frame (hU.kept hK1) (by rw [hF]; simpa using hZp)
    refine ⟨q, _, F', line_any E pick f hp (rep_dt g.rep) pe ?_, ⟨⟨u2.good, ?_, ?_⟩, ?_, fun _ h => h.elim, ?_⟩⟩
    rotate_left
    · exact Frame.trans (hm.frame.mono (by simp)) u2.frame (fun q hq => Or.inl hq)
    · intro r hr
      rcases u2.sub r hr with h | h | h
      · exact Or.inl h
      · exact Or.inr (Or.inr (hm.fresh r h))
      · exact Or.inr (Or.inr (hm.frame.avail r h))
    · intro r hr
      exact ⟨(hK2 r hr).1.trans (hK1 r hr).1, (hK2 r hr).2⟩
    · intro Z' _ i kv c hi _ _
      refine ⟨k, List.mem_cons_self, ?_⟩
      cases i with
      | zero => simp [Assoc.put] at hi; subst hi; exact match_refl E k
      | succ i => simp [Assoc.put] at hi
    · rw [if_pos hlt]
      unfold objMember
      simp only [List.head?_cons, List.drop_succ_cons, List.drop_zero]
      rw [if_neg (by decide), if_pos trivial]
      rw [show getUse n (atEntry s spp p below).p.uses = some u from hu]
      simp only [bind]
      rw [show clone f (atEntry s spp p below).h (some u) (atEntry s spp p below).p.cache = .ok (q, h1) from hr]
      rfl
  · obtain ⟨q, h1, w, Fq, e1, h5, hsl, gq, hZq, hK1, ha, hn, hown, hupd⟩ := put_step L (s := atEntry s spp p below) g H hc k .string hnew hZp hU hC
    obtain ⟨s0, rfl⟩ := slot_str hsl
    cases foot_str gq.rep h5
    have gu1 : Good h1 (some u) x G := gu.keep hK1 hG gq.inv
    have hcp := copyFrom_spec gq h5 gu1 (by intro r hr; simp; rintro rfl; exact hZq (hG r hr)) (is_copyable hi hb gu1.rep) f s.p.cache (fun d hd => Nat.lt_of_lt_of_le (hc d hd) hn)
    have hh := is_height hi
    rcases hr : copyFrom f h1 q (some u) s.p.cache with h2 | _ | _ | _
    rotate_left
    · rw [hr] at hcp; exact hcp.elim
    · rw [hr] at hcp
      simp only [CopyOk] at hcp
      rw [is_full hi] at hcp
      cases hcp
    · rw [hr] at hcp
      simp only [CopyOk] at hcp
      omega
    rw [hr] at hcp
    obtain ⟨-, Fq', u2⟩ := hcp
    have hK2 := kept_frame u2.frame (hU.kept hK1) (by simpa using hZq)
    obtain ⟨F', u', hK, hcl⟩ := hupd h2 _ _ u2 hK2
    refine ⟨q, h2, F', line_any E pick f hp (rep_dt g.rep) pe ?_, ⟨u', hK, fun r hr => hr.elim, fun Z' hZ' => hcl Z' (fun r hr => (hZ' r hr).imp id (fun h => h.elim))⟩⟩
    rw [if_neg hlt, e1]
    simp only [Res.bind]
    rw [strVal1_alias N f { atEntry s spp p below with h := h1 } q hnm (u := u) hu]
    rw [show copyFrom f _ q (some u) _ = .ok h2 from hr]
    rfl

end

/-- `k:`, at the object `p`. -/
theorem obj_key (E : Env) (pick : Heap → Option Nat) (f : Nat) {s : St} {spp : Int} {p : Ptr} {below : List YNode} (hs : s.p.stack = ⟨false, spp, p⟩ :: below)
    (hdt : (s.h.mem p).dt = .object) {k : Bytes} (pl : PlainKey k) (ind : Int) :
    parseObject E pick f (k ++ [58]) ind s =
      (putKey E { s with p := { s.p with first := false } } p k .object).bind (fun x => .ok (push x.2 false ind x.1)) := by
  obtain ⟨⟨first, useCache, last, root, cache, stack, uses⟩, h⟩ := s
  dsimp only at hs hdt
  subst hs
  have hkn := neat_ne pl.key
  unfold parseObject
  simp only [List.cons_ne_nil, if_false, List.head?_cons, splitKv_key pl, false_and, Bool.false_eq_true, and_false]
  split
  · unfold objSame
    rw [if_neg (by simp [hkn]), mergeRef_no pl.merge]
    simp only [bind, Res.bind, Bool.false_eq_true, if_false, ne_eq, not_true_eq_false]
  split
  · unfold objChild
    rw [if_neg hkn]
    dsimp only
    rw [if_pos hdt, mergeRef_no pl.merge]
    simp only [bind, Res.bind, Bool.false_eq_true, if_false]
    rfl
  · unfold objBack
    rw [if_neg (by simp [hkn, hdt]), if_pos rfl]
    simp only [bind]

theorem line_key (E : Env) (pick : Heap → Option Nat) (f : Nat) {s : St} {ind : Nat} {spp : Int} {p : Ptr} {below : List YNode} (hp : Pos s ind spp p below)
    (hdt : (s.h.mem p).dt = .object) {k : Bytes} (pl : PlainKey k) {q : Ptr} {h1 : Heap}
    (e : putKey E (atEntry s spp p below) p k .object = .ok (q, { atEntry s spp p below with h := h1 })) :
    parseLine E pick f (List.replicate ind 32 ++ (k ++ [58])) ind s = .ok (endEntry s ind spp p below q s.p.uses h1) := by
  obtain ⟨c, h1, -, h35, h45⟩ := entry_head pl.key pl.khead ([58])
  have hl : 1 < (k ++ [58]).length := by have := List.length_pos_iff.mpr (neat_ne pl.key); simp; omega
  have hcut : cutComment (k ++ [58]) = k ++ [58] := by simpa using cut_cmt (hash_key pl.comment) hl (c := []) (Or.inl rfl)
  rw [parseLine_at hp (by simpa using h1) h35 h45 hcut, obj_key E pick f (s := { s with p := { s.p with stack := ⟨false, spp, p⟩ :: below } }) rfl hdt pl]
  rw [e]
  rfl

/-- The names of anchors after `k:` or `k: &n`. -/
def useOf (q : Ptr) (uses : List (Bytes × Ptr)) : Option Bytes → List (Bytes × Ptr)
  | none => uses
  | some n => setUse n q uses

theorem foot_empty {h : Heap} {q : Ptr} {ku : Bool} {F : List Ptr} (g : Good h (some q) (.obj ku []) F) : F = [q] := by
  obtain ⟨F0, hF, -, -, hrl⟩ := kids_repL g
  simp [RepL] at hrl
  rw [hF, hrl.2]

/-- A line `k:` or `k: &n`, with a new name. -/
theorem sub_step {E : Env} (L : KeyLaws E) (pick : Heap → Option Nat) (f : Nat) {s : St} {ind : Nat} {spp : Int} {p : Ptr} {below : List YNode} (hp : Pos s ind spp p below)
    {ku : Bool} {kvs : List (Bytes × Val)} {F : List Ptr} {l0 : List (Bytes × Val)} {names : List Bytes} {Z : Ptr → Prop} (g : Good s.h (some p) (.obj ku kvs) F)
    (H : Holds E (.obj ku kvs) l0) (hc : ∀ d, s.p.cache = some d → d < s.h.nextC) (hZp : ¬Z p) (hU : Used Z s.h) (hC : Clear E Z s.h p l0 names)
    {k : Bytes} {a : Option Bytes} (pl : PlainKey k) (pa : ∀ n, a = some n → AName n ∧ EntryLine k (38 :: n)) (ha : a ≠ none → s.p.last < ind)
    (hnew : ∀ k' ∈ names, E.keyMatch k' k = false) (hno : objOld E ku kvs k = none) :
    ∃ q h1, parseLine E pick f (List.replicate ind 32 ++ ADoc.head k a) ind s = .ok (endEntry s ind spp p below q (useOf q s.p.uses a) h1) ∧ 5 ≤ q ∧
      Good h1 (some q) (.obj false []) [q] ∧ ¬Z q ∧ Kept Z s.h h1 ∧ (∀ r, r = q ∨ Avail h1 r → r ≠ p ∧ (r ∈ F ∨ Avail s.h r)) ∧
      ∀ h2 w Fq, Upd h1 [q] h2 (some q) w Fq → Kept Z h1 h2 → ∃ F', Entry E Z (fun r => r = q ∨ Avail h1 r) s.h h2 p ku kvs F l0 names k w F' := by
  obtain ⟨q, h1, w, Fq, e1, h5, hsl, gq, hZq, hK1, hav, hn, hown, hupd⟩ := put_step L (s := atEntry s spp p below) g H hc k .object hnew hZp hU hC
  rw [hno] at hsl
  have hw : w = .obj false [] := by
    obtain ⟨c, rfl⟩ := hsl
    rfl
  subst hw
  cases foot_empty gq
  refine ⟨q, h1, ?_, h5, gq, hZq, hK1, fun r hr => hown r (by simpa using hr), ?_⟩
  · cases a with
    | none => exact line_key E pick f hp (rep_dt g.rep) pl e1
    | some n =>
      obtain ⟨hnm, pe⟩ := pa n rfl
      refine line_any E pick f hp (rep_dt g.rep) pe ?_
      rw [if_pos (ha (by simp))]
      unfold objMember
      simp only [List.head?_cons, if_true, List.drop_succ_cons, List.drop_zero, findIdx_name_none hnm.2.1, Option.getD_none, Nat.lt_irrefl, if_false, bind]
      rw [e1]
      rfl
  · intro h2 w Fq u2 hK2
    obtain ⟨F', u, hK, hcl⟩ := hupd h2 w Fq u2 hK2
    exact ⟨F', u, hK, fun r hr => hown r (by simpa using hr), fun Z' hZ' => hcl Z' (fun r hr => by simpa using hZ' r hr)⟩

theorem splitKv_merge {v : Bytes} (hv : Neat v) : splitKv ([60, 60] ++ [58, 32] ++ v) = ([60, 60], v, true) :=
  splitKv_any ⟨⟨60, rfl, by decide⟩, ⟨60, rfl, by decide⟩⟩ hv (by decide)

/-- A name is written as it is. -/
theorem AName.neat {n : Bytes} (h : AName n) (c : UInt8) (hc : c ≠ 32 ∧ c ≠ 10 ∧ c ≠ 13) : Neat (c :: n) := by
  refine ⟨⟨c, rfl, hc⟩, ?_⟩
  obtain ⟨hn, h1, h2, h3⟩ := h
  have : (c :: n).getLast? = some (n.getLast hn) := by rw [List.getLast?_cons, List.getLast?_eq_some_getLast hn]; rfl
  refine ⟨_, this, ?_⟩
  have hm := List.getLast_mem hn
  exact ⟨fun e => h1 (e ▸ hm), fun e => h2 (e ▸ hm), fun e => h3 (e ▸ hm)⟩

/-- `<<: *n` as the first line of a mapping that is still empty. -/
theorem merge_step {E : Env} (pick : Heap → Option Nat) (f : Nat) {s : St} {ind : Nat} {spp : Int} {p : Ptr} {below : List YNode} (hp : Pos s ind spp p below)
    {Z : Ptr → Prop} (g : Good s.h (some p) (.obj false []) [p]) (hc : ∀ d, s.p.cache = some d → d < s.h.nextC) (hZp : ¬Z p) (hU : Used Z s.h) (hlt : s.p.last < ind)
    {n : Bytes} (hnm : AName n) {l : List (Bytes × YV)} {u : Ptr} {x : Val} {G : List Ptr} (hu : getUse n s.p.uses = some u) (gu : Good s.h (some u) x G) (hi : Is E (.map l) x)
    (hG : ∀ q ∈ G, Z q) (hb : (YV.map l).noBool = true) (hf : (YV.map l).height ≤ f) :
    ∃ h2 F' ku kvs, parseLine E pick f (List.replicate ind 32 ++ ([60, 60] ++ [58, 32] ++ (42 :: n))) ind s = .ok (endEntry s ind spp p below p s.p.uses h2) ∧
      Upd s.h [p] h2 (some p) (.obj ku kvs) F' ∧ Is E (.map l) (.obj ku kvs) ∧ Kept Z s.h h2 ∧ Clear E Z h2 p (members E (.obj ku kvs)) [] := by
  have hi0 := hi
  obtain ⟨ku, kvs, rfl, hd, hl⟩ := hi
  have hcp := addFrom_spec g gu (by intro r hr; simp; rintro rfl; exact hZp (hG r hr)) (is_copyable hi0 hb gu.rep) f s.p.cache hc (v' := .obj ku (cloneVals kvs)) (by simp [addVal])
  have hh := is_height hi0
  rcases hr : addFrom f s.h p (some u) s.p.cache with h2 | _ | _ | _
  rotate_left
  · rw [hr] at hcp; exact hcp.elim
  · rw [hr] at hcp
    have : noNil (.obj ku kvs) = false := hcp
    rw [is_full hi0] at this
    cases this
  · rw [hr] at hcp
    have : f + 1 < Heap.height (.obj ku kvs) := hcp
    omega
  rw [hr] at hcp
  obtain ⟨-, F', u2⟩ := hcp
  refine ⟨h2, F', ku, cloneVals kvs, ?_, u2, is_clone hi0, kept_frame u2.frame hU (by simpa using hZp), ?_⟩
  · have hv : Neat (42 :: n) := hnm.neat 42 (by decide)
    have hcm : ¬[32, 35] <:+: [60, 60] ++ [58, 32] ++ (42 :: n) := by
      rintro ⟨a, b, e⟩
      match a, e with
      | [], e => simp at e
      | [_], e => simp at e
      | [_, _], e => simp at e
      | [_, _, _], e => simp at e
      | [_, _, _, _], e => simp at e
      | _ :: _ :: _ :: _ :: _ :: a, e =>
        simp at e
        exact hnm.2.1 (by rw [← e.2.2.2.2.2]; simp)
    have hcut : cutComment ([60, 60] ++ [58, 32] ++ (42 :: n)) = [60, 60] ++ [58, 32] ++ (42 :: n) := by
      simpa using cut_cmt hcm (by simp) (c := []) (Or.inl rfl)
    rw [parseLine_at hp (c := 60) rfl (by decide) (by decide) hcut]
    unfold parseObject
    simp only [List.cons_ne_nil, if_false, List.head?_cons, splitKv_merge hv, false_and, Bool.false_eq_true, and_false]
    rw [if_neg (by omega), if_pos (by omega)]
    unfold objChild
    rw [if_neg (by simp)]
    dsimp only
    rw [if_pos (show (s.h.mem p).dt = VT.object from rep_dt g.rep)]
    unfold mergeRef
    rw [if_pos rfl]
    simp only [List.head?_cons, refName_star hnm.2.1, true_and, ne_eq, hnm.1, not_false_eq_true, if_true, hu]
    rw [if_pos (show (s.h.mem u).dt = VT.object from rep_dt gu.rep)]
    simp only [bind]
    rw [show addFrom f _ p (some u) _ = .ok h2 from hr]
    rfl
  · intro i kv c _ hic hz
    obtain ⟨F0, hF, -, -, hrl⟩ := kids_repL u2.good
    rcases u2.sub c (by rw [hF]; exact List.mem_cons_of_mem _ (repL_mem hrl hic (hU c hz).1)) with h | h | h
    · simp at h; subst h; exact absurd hz hZp
    · cases h
    · exact absurd h (hU c hz).2

/-! ## Heights -/

/-- The number of entries. -/
def ADoc.size : ADoc → Nat
  | .nil => 0
  | .leaf _ _ r => r.size + 1
  | .anchor _ _ _ r => r.size + 1
  | .alias _ _ r => r.size + 1
  | .sub _ _ _ _ m r => m.size + r.size + 1

/-- No anchored value is higher. -/
def Low (B : Nat) (sc : Scope) : Prop := ∀ kv ∈ sc, kv.2.height ≤ B

theorem Low.mono {B B' : Nat} {sc : Scope} (h : Low B sc) (hb : B ≤ B') : Low B' sc := fun kv hkv => Nat.le_trans (h kv hkv) hb

theorem Low.cons {B : Nat} {sc : Scope} (h : Low B sc) {n : Bytes} {y : YV} (hy : y.height ≤ B) : Low B ((n, y) :: sc) := by
  intro kv hkv
  rcases List.mem_cons.1 hkv with rfl | hkv
  · exact hy
  · exact h kv hkv

theorem Low.hide {B : Nat} {sc : Scope} (h : Low B sc) (a : Option Bytes) : Low B (sc.hide a) := by
  cases a with
  | none => exact h
  | some n => exact fun kv hkv => h kv (List.mem_filter.1 hkv).1

theorem Low.add {B : Nat} {sc : Scope} (h : Low B sc) (a : Option Bytes) {y : YV} (hy : y.height ≤ B) : Low B (sc.add a y) := by
  cases a with
  | none => exact h
  | some n => exact h.cons hy

theorem Scope.find_some {sc : Scope} {n : Bytes} {y : YV} (h : sc.find n = some y) : (List.find? (fun kv => kv.1 == n) sc).map Prod.snd = some y ∧ y.noBool = true := by
  unfold Scope.find at h
  rw [Option.filter_eq_some_iff] at h
  exact h

theorem Low.find {B : Nat} {sc : Scope} (h : Low B sc) {n : Bytes} {y : YV} (hy : sc.find n = some y) : y.height ≤ B := by
  obtain ⟨h1, -⟩ := Scope.find_some hy
  obtain ⟨kv, hkv, rfl⟩ := Option.map_eq_some_iff.1 h1
  exact h kv (List.mem_of_find?_eq_some hkv)

theorem Low.start {B : Nat} {sc : Scope} (h : Low B sc) {mg : Option Bytes} {l : List (Bytes × YV)} (hl : sc.start mg = some l) : YV.heights l ≤ B := by
  unfold Scope.start at hl
  split at hl
  · cases hl; simp [YV.heights]
  · split at hl
    · rename_i hf
      cases hl
      have := h.find hf
      simp only [YV.height] at this
      omega
    · cases hl

theorem heights_put {m : Bytes → Bytes → Bool} : ∀ (l : List (Bytes × YV)) (k : Bytes) (y : YV), YV.heights (Assoc.put m l k y) ≤ max (YV.heights l) y.height
  | [], k, y => by simp [Assoc.put, YV.heights]
  | (k0, y0) :: l, k, y => by
    have := heights_put (m := m) l k y
    unfold Assoc.put
    split <;> simp only [YV.heights] <;> omega

theorem eval_height {E : Env} : ∀ (d : ADoc) {fst : Bool} {names : List Bytes} {sc sc' : Scope} {acc l : List (Bytes × YV)} {B : Nat}, d.eval E fst names sc acc = some (l, sc') →
    Low B sc → YV.heights acc ≤ B → YV.heights l ≤ B + d.size ∧ Low (B + d.size) sc'
  | .nil, fst, names, sc, sc', acc, l, B, h, hs, ha => by
    simp only [ADoc.eval, Option.some.injEq, Prod.mk.injEq] at h
    obtain ⟨rfl, rfl⟩ := h
    exact ⟨ha, hs⟩
  | .leaf k v r, fst, names, sc, sc', acc, l, B, h, hs, ha => by
    simp only [ADoc.eval] at h
    split at h
    · cases h
    · have hp := heights_put (m := E.keyMatch) acc k (.leaf v)
      simp only [YV.height] at hp
      have := eval_height r (B := B + 1) h (hs.mono (by omega)) (by omega)
      simp only [ADoc.size]
      rw [show B + (r.size + 1) = B + 1 + r.size by omega]
      exact this
  | .anchor k n v r, fst, names, sc, sc', acc, l, B, h, hs, ha => by
    simp only [ADoc.eval] at h
    split at h
    · cases h
    · have hp := heights_put (m := E.keyMatch) acc k (.leaf v)
      simp only [YV.height] at hp
      have := eval_height r (B := B + 1) h ((hs.mono (by omega)).cons (by simp [YV.height])) (by omega)
      simp only [ADoc.size]
      rw [show B + (r.size + 1) = B + 1 + r.size by omega]
      exact this
  | .alias k n r, fst, names, sc, sc', acc, l, B, h, hs, ha => by
    simp only [ADoc.eval] at h
    split at h
    · cases h
    · split at h
      · cases h
      · rename_i y hy
        have hp := heights_put (m := E.keyMatch) acc k y
        have hy' := hs.find hy
        have := eval_height r (B := B + 1) h (hs.mono (by omega)) (by omega)
        simp only [ADoc.size]
        rw [show B + (r.size + 1) = B + 1 + r.size by omega]
        exact this
  | .sub k a mg dd m r, fst, names, sc, sc', acc, l, B, h, hs, ha => by
    simp only [ADoc.eval] at h
    split at h
    · cases h
    split at h
    · cases h
    rename_i l0 hl0
    split at h
    · cases h
    rename_i l1 sc1 hm
    have hs' := hs.hide a
    obtain ⟨h1, h2⟩ := eval_height m hm hs' (hs'.start hl0)
    have hp := heights_put (m := E.keyMatch) acc k (.map l1)
    simp only [YV.height] at hp
    have := eval_height r (B := B + m.size + 1) h ((h2.mono (by omega)).add a (by simp only [YV.height]; omega)) (by omega)
    simp only [ADoc.size]
    rw [show B + (m.size + r.size + 1) = B + m.size + 1 + r.size by omega]
    exact this

/-! ## Blocks -/

section
variable {X : List Ptr} {h0 : Heap}

theorem Pos.ge {s : St} {ind : Nat} {spp : Int} {p : Ptr} {below : List YNode} (h : Pos s ind spp p below) : spp ≤ s.p.last := by
  obtain ⟨hlt, ⟨-, hl⟩ | ⟨up, q, -, hu, hl⟩⟩ := h
  · omega
  · cases up with
    | nil => have := hl _ rfl; dsimp only at this; omega
    | cons e up => have := hl e rfl; have := (hu e List.mem_cons_self).1; omega

/-- The parser is about to read the next entry of the object `p`. -/
structure Turn (E : Env) (X : List Ptr) (h0 : Heap) (S Z : Ptr → Prop) (s : St) (ind : Nat) (spp : Int) (p : Ptr) (below : List YNode) (x : Val) (F : List Ptr)
    (acc : List (Bytes × YV)) (names : List Bytes) (sc : Scope) (fst : Bool) : Prop where
  fine : Fine X h0 S s
  pos : Pos s ind spp p below
  good : Good s.h (some p) x F
  holds : ∃ l0, Holds E x l0 ∧ IsL E acc l0 ∧ Clear E Z s.h p l0 names
  zp : ¬Z p
  used : Used Z s.h
  anch : Anch E Z s.h s.p.uses sc
  empty : s.p.last < ind → acc = []
  first : fst = true → s.p.last < ind

/-- What the entries of a mapping have done. -/
structure Done (E : Env) (X : List Ptr) (h0 : Heap) (S Z : Ptr → Prop) (s : St) (ind : Nat) (spp : Int) (p : Ptr) (below : List YNode) (F : List Ptr) (d : ADoc)
    (l : List (Bytes × YV)) (sc : Scope) (s' : St) : Prop where
  next : Next X h0 S s'
  pos : Pos s' ind spp p below
  root : s'.p.root = s.p.root
  kept : Kept Z s.h s'.h
  uses : ∀ n, n ∉ d.anchors → getUse n s'.p.uses = getUse n s.p.uses
  res : ∃ x' F' l' Z', Upd s.h F s'.h (some p) x' F' ∧ Holds E x' l' ∧ IsL E l l' ∧ Used Z' s'.h ∧ (∀ r, Z r → Z' r) ∧ (∀ r, Z' r → Z r ∨ r ∈ F ∨ Avail s.h r) ∧
    Anch E Z' s'.h s'.p.uses sc

/-- After an entry. -/
theorem Turn.entry {E : Env} (L : KeyLaws E) {S S2 Z Z2 Y : Ptr → Prop} {s s2 : St} {ind : Nat} {spp : Int} {p : Ptr} {below : List YNode} {ku : Bool} {kvs : List (Bytes × Val)} {F : List Ptr}
    {acc : List (Bytes × YV)} {names : List Bytes} {sc sc2 : Scope} {fst : Bool} (A : Turn E X h0 S Z s ind spp p below (.obj ku kvs) F acc names sc fst)
    {l0 : List (Bytes × Val)} (H : Holds E (.obj ku kvs) l0) (hI : IsL E acc l0) {k : Bytes} {w : Val} {y : YV} {F2 : List Ptr} (en : Entry E Z Y s.h s2.h p ku kvs F l0 names k w F2)
    (hy : Is E y w) (hf : Fine X h0 S2 s2) (hp : Pos s2 ind spp p below) (hl : ¬s2.p.last < ind) (hZ : ∀ r, Z2 r → Z r ∨ Y r) (hU : Used Z2 s2.h) (hA : Anch E Z2 s2.h s2.p.uses sc2) :
    Turn E X h0 S2 Z2 s2 ind spp p below (objPut E ku kvs k w) F2 (Assoc.put E.keyMatch acc k y) (k :: names) sc2 false where
  fine := hf
  pos := hp
  good := en.upd.good
  holds := ⟨_, H.put L k (is_ne_nil hy), isL_put hI hy, en.clear Z2 hZ⟩
  zp := fun h => by
    rcases hZ p h with h | h
    · exact A.zp h
    · exact (en.own p h).1 rfl
  used := hU
  anch := hA
  empty := fun h => absurd h hl
  first := fun h => by cases h

/-- The rest, after an entry. -/
theorem Done.after {E : Env} {S S2 Z Z2 Y : Ptr → Prop} {s s2 s' : St} {ind : Nat} {spp : Int} {p : Ptr} {below : List YNode} {ku : Bool} {kvs : List (Bytes × Val)} {F F2 : List Ptr}
    {l0 : List (Bytes × Val)} {names : List Bytes} {k : Bytes} {w : Val} {l : List (Bytes × YV)} {sc : Scope} {d r : ADoc} (en : Entry E Z Y s.h s2.h p ku kvs F l0 names k w F2)
    (D : Done E X h0 S2 Z2 s2 ind spp p below F2 r l sc s') (hS : ∀ q, S q → S2 q) (hr : s2.p.root = s.p.root) (hZ1 : ∀ r, Z r → Z2 r) (hZ2 : ∀ r, Z2 r → Z r ∨ Y r)
    (hu : ∀ n, n ∉ d.anchors → n ∉ r.anchors ∧ getUse n s2.p.uses = getUse n s.p.uses) : Done E X h0 S Z s ind spp p below F d l sc s' where
  next := by
    obtain ⟨S3, h1, h2⟩ := D.next
    exact ⟨S3, fun q hq => h1 q (hS q hq), h2⟩
  pos := D.pos
  root := D.root.trans hr
  kept := fun q hq => ⟨(D.kept q (hZ1 q hq)).1.trans (en.kept q hq).1, (D.kept q (hZ1 q hq)).2⟩
  uses := fun n hn => (D.uses n (hu n hn).1).trans (hu n hn).2
  res := by
    obtain ⟨x', F', l', Z', h1, h2, h3, h4, h5, h6, h7⟩ := D.res
    refine ⟨x', F', l', Z', UpdX.trans (X := []) en.upd h1, h2, h3, h4, fun r hr => h5 r (hZ1 r hr), ?_, h7⟩
    intro r hr
    rcases h6 r hr with h | h | h
    · rcases hZ2 r h with h | h
      · exact Or.inl h
      · exact Or.inr (en.own r h).2
    · rcases en.upd.sub r h with h | h | h
      · exact Or.inr (Or.inl h)
      · cases h
      · exact Or.inr (Or.inr h)
    · exact Or.inr (Or.inr (en.upd.frame.avail r h))

theorem Pos.endEntry {s : St} {ind : Nat} {spp : Int} {p : Ptr} {below : List YNode} (h : Pos s ind spp p below) (q : Ptr) (uses : List (Bytes × Ptr)) (h' : Heap) :
    Pos (Yaml.endEntry s ind spp p below q uses h') ind spp p below := ⟨h.1, Or.inr ⟨[], q, rfl, by simp, fun n hn => by cases hn; rfl⟩⟩

theorem Pos.enter {s : St} {ind : Nat} {spp : Int} {p : Ptr} {below : List YNode} (q : Ptr) (uses : List (Bytes × Ptr)) (h' : Heap) {ind' : Nat} (hi : ind < ind') :
    Pos (Yaml.endEntry s ind spp p below q uses h') ind' ind q (⟨false, spp, p⟩ :: below) := ⟨by omega, Or.inl ⟨rfl, rfl⟩⟩

theorem Anch.shadow {E : Env} {Z : Ptr → Prop} {h : Heap} {uses : List (Bytes × Ptr)} {sc : Scope} (a : Anch E Z h uses sc) (n : Bytes) (q : Ptr) :
    Anch E Z h (setUse n q uses) (sc.filter (fun kv => kv.1 != n)) := by
  intro n' y hy
  obtain ⟨hne, hy'⟩ := find_filter hy
  rw [getUse_set, if_neg (Ne.symm hne)]
  exact a n' y hy'

theorem Anch.add {E : Env} {Z Z' : Ptr → Prop} {h : Heap} {uses : List (Bytes × Ptr)} {sc : Scope} (a : Anch E Z h uses sc) (hZ : ∀ r, Z r → Z' r) {n : Bytes} {y : YV} {u : Ptr} {x : Val} {G : List Ptr}
    (hu : getUse n uses = some u) (g : Good h (some u) x G) (hi : Is E y x) (hG : ∀ q ∈ G, Z' q) : Anch E Z' h uses ((n, y) :: sc) := by
  intro n' y' hy
  simp only [List.find?_cons] at hy
  by_cases h : n = n'
  · subst h
    simp at hy
    subst hy
    exact ⟨u, x, G, hu, g, hi, hG⟩
  · have h' : (n == n') = false := by simpa using h
    rw [h'] at hy
    obtain ⟨u', x', G', h1, h2, h3, h4⟩ := a n' y' hy
    exact ⟨u', x', G', h1, h2, h3, fun q hq => hZ q (h4 q hq)⟩

theorem any_false {E : Env} {names : List Bytes} {k : Bytes} (h : ¬names.any (E.keyMatch · k) = true) : ∀ k' ∈ names, E.keyMatch k' k = false := by
  intro k' hk'
  simp only [List.any_eq_true, not_exists, not_and, Bool.not_eq_true] at h
  exact h k' hk'

theorem isL_any {E : Env} : ∀ {l : List (Bytes × YV)} {l' : List (Bytes × Val)} {k : Bytes}, IsL E l l' → ¬l.any (fun kv => E.keyMatch kv.1 k) = true → ∀ kv ∈ l', E.keyMatch kv.1 k = false := by
  intro l l' k h hn kv hkv
  have hm := isL_keys h
  have : kv.1 ∈ l.map Prod.fst := by rw [← hm]; exact List.mem_map_of_mem hkv
  obtain ⟨kv', h1, h2⟩ := List.mem_map.1 this
  simp only [List.any_eq_true, not_exists, not_and, Bool.not_eq_true] at hn
  rw [← h2]
  exact hn kv' h1

/-- An entry that leaves the anchors as they are. -/
theorem Entry.anch {E : Env} {Z Y : Ptr → Prop} {h h2 : Heap} {p : Ptr} {ku : Bool} {kvs : List (Bytes × Val)} {F : List Ptr} {l0 : List (Bytes × Val)} {names : List Bytes} {k : Bytes} {w : Val}
    {F2 : List Ptr} (en : Entry E Z Y h h2 p ku kvs F l0 names k w F2) {uses : List (Bytes × Ptr)} {sc : Scope} (a : Anch E Z h uses sc) : Anch E Z h2 uses sc :=
  a.keep en.kept en.upd.frame.inv (fun _ => id)

/-- The lines of a mapping do what the specification says. -/
theorem blockA {E : Env} (L : KeyLaws E) (N : NumLaw E) (pick : Heap → Option Nat) (f : Nat) : ∀ (d : ADoc) (ind : Nat) {S Z : Ptr → Prop} {s : St} {spp : Int} {p : Ptr} {below : List YNode}
    {x : Val} {F : List Ptr} {acc : List (Bytes × YV)} {names : List Bytes} {sc : Scope} {fst : Bool} {B : Nat} {l : List (Bytes × YV)} {sc' : Scope},
    Turn E X h0 S Z s ind spp p below x F acc names sc fst → d.Plain → Low B sc → YV.heights acc ≤ B → B + d.size ≤ f → d.eval E fst names sc acc = some (l, sc') →
    ∃ s', runLines E pick f (d.lines ind) s = .ok s' ∧ Done E X h0 S Z s ind spp p below F d l sc' s'
  | .nil, ind, S, Z, s, spp, p, below, x, F, acc, names, sc, fst, B, l, sc', A, hpl, hB, hacc, hf, he => by
    simp only [ADoc.eval, Option.some.injEq, Prod.mk.injEq] at he
    obtain ⟨rfl, rfl⟩ := he
    obtain ⟨l0, H, hI, hC⟩ := A.holds
    exact ⟨s, rfl, ⟨S, fun _ => id, A.fine⟩, A.pos, rfl, fun r hr => ⟨rfl, (A.used r hr).2⟩, fun _ _ => rfl, x, F, l0, Z, A.good.upd_refl, H, hI, A.used, fun _ => id, fun _ => Or.inl, A.anch⟩
  | .leaf k v r, ind, S, Z, s, spp, p, below, x, F, acc, names, sc, fst, B, l, sc', A, hpl, hB, hacc, hf, he => by
    simp only [ADoc.eval] at he
    split at he
    · cases he
    rename_i hnew
    simp only [ADoc.size] at hf
    obtain ⟨l0, H, hI, hC⟩ := A.holds
    obtain ⟨ku, kvs, rfl⟩ := H.obj
    obtain ⟨q, h2, F2, e, en⟩ := leaf_step L pick f A.pos A.good H A.fine.cache A.zp A.used hC hpl.1 (any_false hnew)
    obtain ⟨S2, hS, a2⟩ := parseLine_fine A.fine e
    have hp := heights_put (m := E.keyMatch) acc k (.leaf v)
    simp only [YV.height] at hp
    obtain ⟨s', e', D⟩ := blockA L N pick f r ind (B := B + 1) (A.entry L H hI (y := .leaf v) (s2 := endEntry s ind spp p below q s.p.uses h2) en rfl a2 (A.pos.endEntry ..) (Int.lt_irrefl _) (fun _ => Or.inl)
      (A.used.kept en.kept) (en.anch A.anch)) hpl.2 (hB.mono (by omega)) (by omega) (by omega) he
    refine ⟨s', ?_, D.after (s := s) en hS rfl (fun _ => id) (fun _ => Or.inl) (fun n hn => ⟨hn, rfl⟩)⟩
    obtain ⟨c, hc1, hc2, -, -⟩ := entry_head hpl.1.key hpl.1.khead ([58, 32] ++ v)
    rw [ADoc.lines, runLines_entry _ _ _ (by simpa using hc1) hc2 (by simp; omega), e]
    exact e'
  | .anchor k n v r, ind, S, Z, s, spp, p, below, x, F, acc, names, sc, fst, B, l, sc', A, hpl, hB, hacc, hf, he => by
    simp only [ADoc.eval] at he
    split at he
    · cases he
    rename_i hnew
    simp only [ADoc.size] at hf
    obtain ⟨l0, H, hI, hC⟩ := A.holds
    obtain ⟨ku, kvs, rfl⟩ := H.obj
    obtain ⟨q, h2, F2, e, en, gq⟩ := anchor_step L N pick f A.pos A.good H A.fine.cache A.zp A.used hC hpl.1 hpl.2.1 hpl.2.2.1 (any_false hnew)
    obtain ⟨S2, hS, a2⟩ := parseLine_fine A.fine e
    have hp := heights_put (m := E.keyMatch) acc k (.leaf v)
    simp only [YV.height] at hp
    obtain ⟨s', e', D⟩ := blockA L N pick f r ind (B := B + 1) (A.entry L H hI (y := .leaf v) (s2 := endEntry s ind spp p below q (setUse n q s.p.uses) h2) (Z2 := fun r => Z r ∨ r = q) en rfl a2 (A.pos.endEntry ..)
      (Int.lt_irrefl _) (fun _ => id)
      (by
        rintro r (hr | rfl)
        · exact A.used.kept en.kept r hr
        · exact ⟨rep_ge gq.rep r (by simp), gq.live r (by simp)⟩)
      (((en.anch A.anch).keep (fun r hr => ⟨rfl, (en.kept r hr).2⟩) en.upd.frame.inv (fun r hr => Or.inl hr)).set gq (y := .leaf v) rfl (fun r hr => Or.inr (by simpa using hr))))
      hpl.2.2.2 ((hB.mono (by omega)).cons (by simp [YV.height])) (by omega) (by omega) he
    refine ⟨s', ?_, D.after (s := s) en hS rfl (fun _ => Or.inl) (fun _ => id) ?_⟩
    · obtain ⟨c, hc1, hc2, -, -⟩ := entry_head hpl.1.key hpl.1.khead ([58, 32] ++ (38 :: (n ++ 32 :: v)))
      rw [ADoc.lines, runLines_entry _ _ _ (by simpa using hc1) hc2 (by simp; omega), e]
      exact e'
    · intro n' hn'
      simp only [ADoc.anchors, List.mem_cons, not_or] at hn'
      refine ⟨hn'.2, ?_⟩
      dsimp only
      rw [getUse_set, if_neg (Ne.symm hn'.1)]
  | .alias k n r, ind, S, Z, s, spp, p, below, x, F, acc, names, sc, fst, B, l, sc', A, hpl, hB, hacc, hf, he => by
    simp only [ADoc.eval] at he
    split at he
    · cases he
    rename_i hnew
    split at he
    · cases he
    rename_i y hy
    simp only [ADoc.size] at hf
    obtain ⟨l0, H, hI, hC⟩ := A.holds
    obtain ⟨ku, kvs, rfl⟩ := H.obj
    have hyh := hB.find hy
    obtain ⟨hy1, hyb⟩ := Scope.find_some hy
    obtain ⟨u, xu, G, hu, gu, hIu, hGu⟩ := A.anch n y hy1
    obtain ⟨q, h2, F2, e, en⟩ := alias_step L N pick f A.pos A.good H A.fine.cache A.zp A.used hC hpl.1 hpl.2.1 (any_false hnew)
      (fun h => by have := A.empty h; subst this; simpa [IsL] using hI) hu gu hIu hGu hyb (by omega)
    obtain ⟨S2, hS, a2⟩ := parseLine_fine A.fine e
    have hp := heights_put (m := E.keyMatch) acc k y
    obtain ⟨s', e', D⟩ := blockA L N pick f r ind (B := B + 1) (A.entry L H hI (y := y) (s2 := endEntry s ind spp p below q s.p.uses h2) en (is_clone hIu) a2 (A.pos.endEntry ..) (Int.lt_irrefl _) (fun _ => Or.inl)
      (A.used.kept en.kept) (en.anch A.anch)) hpl.2.2 (hB.mono (by omega)) (by omega) (by omega) he
    refine ⟨s', ?_, D.after (s := s) en hS rfl (fun _ => id) (fun _ => Or.inl) (fun n hn => ⟨hn, rfl⟩)⟩
    obtain ⟨c, hc1, hc2, -, -⟩ := entry_head hpl.2.1.key hpl.2.1.khead ([58, 32] ++ (42 :: n))
    rw [ADoc.lines, runLines_entry _ _ _ (by simpa using hc1) hc2 (by simp; omega), e]
    exact e'
  | .sub k a mg dd m r, ind, S, Z, s, spp, p, below, x, F, acc, names, sc, fst, B, l, sc', A, hpl, hB, hacc, hf, he => by
    simp only [ADoc.eval] at he
    split at he
    · cases he
    rename_i hcond
    simp only [Bool.or_eq_true, not_or] at hcond
    obtain ⟨⟨⟨hnew, hno⟩, -⟩, hanc⟩ := hcond
    simp only [ADoc.size] at hf
    obtain ⟨l0, H, hI, hC⟩ := A.holds
    obtain ⟨ku, kvs, rfl⟩ := H.obj
    split at he
    · cases he
    rename_i ls hst
    split at he
    · cases he
    rename_i l1 sc1 hm
    have hfst : a ≠ none → fst = true := by
      intro ha
      cases a with
      | none => exact absurd rfl ha
      | some n => simp at hanc; exact hanc.1
    have hanc : ∀ n, a = some n → n ∉ m.anchors := by
      rintro n rfl
      simp at hanc
      exact hanc.2
    have hlow := hB.hide a
    obtain ⟨q, h1, e1, h5, gq, hZq, hK1, hown, hcont⟩ := sub_step L pick f A.pos A.good H A.fine.cache A.zp A.used hC hpl.1 hpl.2.1 (fun h => A.first (hfst h)) (any_false hnew)
      (by rw [objOld_members L ku kvs (by rw [H.mem]; exact H.unique), H.mem, Assoc_get_new (isL_any hI hno)])
    obtain ⟨S1, hS1, a1⟩ := parseLine_fine A.fine e1
    have hU1 := A.used.kept hK1
    have hA1 : Anch E Z h1 (useOf q s.p.uses a) (sc.hide a) := by
      have := A.anch.keep hK1 gq.inv (Z' := Z) (fun _ => id)
      cases a with
      | none => exact this
      | some n => exact this.shadow n q
    have hP1 : Pos (endEntry s ind spp p below q (useOf q s.p.uses a) h1) (ind + dd + 1) ind q (⟨false, spp, p⟩ :: below) := Pos.enter q _ h1 (by omega)
    -- the merge line
    obtain ⟨s1, xs, Fs, S1', em, T, uq, hK2, hr1, hS1', hus⟩ : ∃ s1 xs Fs S1', runLines E pick f (ADoc.mergeLine (ind + dd + 1) mg) (endEntry s ind spp p below q (useOf q s.p.uses a) h1) = .ok s1 ∧
        Turn E X h0 S1' Z s1 (ind + dd + 1) ind q (⟨false, spp, p⟩ :: below) xs Fs ls [] (sc.hide a) mg.isNone ∧
        Upd h1 [q] s1.h (some q) xs Fs ∧ Kept Z h1 s1.h ∧ s1.p.root = s.p.root ∧ (∀ r, S1 r → S1' r) ∧ s1.p.uses = useOf q s.p.uses a := by
      cases mg with
      | none =>
        cases hst
        refine ⟨_, .obj false [], [q], S1, rfl, ⟨a1, hP1, gq, ⟨[], ⟨⟨_, _, rfl⟩, rfl, List.Pairwise.nil, by simp⟩, rfl, by intro i kv c h; simp at h⟩, hZq, hU1, hA1, fun _ => rfl, fun _ => ?_⟩,
          gq.upd_refl, fun r hr => ⟨rfl, (hU1 r hr).2⟩, rfl, fun _ => id, rfl⟩
        dsimp only
        omega
      | some n =>
        have hnm := hpl.2.2.1 n rfl
        unfold Scope.start at hst
        dsimp only at hst
        split at hst
        rotate_left
        · cases hst
        rename_i lm hfm
        cases hst
        have hyh := hlow.find hfm
        obtain ⟨hy1, hyb⟩ := Scope.find_some hfm
        obtain ⟨u, xu, G, hu, gu, hIu, hGu⟩ := hA1 n _ hy1
        obtain ⟨h2, F', ku', kvs', e2, u2, hi2, hk2, hcl2⟩ := merge_step pick f hP1 gq a1.cache hZq hU1 (by dsimp only; omega) hnm hu gu hIu hGu hyb (by omega)
        obtain ⟨S2, hS2, a2⟩ := parseLine_fine a1 e2
        have hi2' := hi2
        obtain ⟨ku2, kvs2, e2', hd2, hl2⟩ := hi2'
        cases e2'
        refine ⟨_, .obj ku' kvs', F', S2, ?_, ⟨a2, hP1.endEntry .., u2.good, ⟨_, ⟨⟨_, _, rfl⟩, rfl, hd2, isL_noNil hl2⟩, hl2, hcl2⟩, hZq, hU1.kept hk2, hA1.keep hk2 u2.frame.inv (fun _ => id), fun h => ?_, fun h => by cases h⟩,
          u2, hk2, rfl, hS2, rfl⟩
        · rw [ADoc.mergeLine, runLines_entry _ _ _ (c := 60) rfl (by decide) (by simp), e2]
          rfl
        · exact absurd h (Int.lt_irrefl _)
    -- the entries of the inner mapping
    obtain ⟨s3, e3, D3⟩ := blockA L N pick f m (ind + dd + 1) T hpl.2.2.2.1 hlow (hlow.start hst) (by omega) hm
    obtain ⟨x3, F3, l3, Z3, u3, H3, hI3, hU3, hZ31, hZ32, hA3⟩ := D3.res
    obtain ⟨S3, hS3, a3⟩ := D3.next
    have u13 : Upd h1 [q] s3.h (some q) x3 F3 := UpdX.trans (X := []) uq u3
    have hK13 : Kept Z h1 s3.h := fun r hr => ⟨(D3.kept r hr).1.trans (hK2 r hr).1, (D3.kept r hr).2⟩
    obtain ⟨F4, en⟩ := hcont s3.h x3 F3 u13 hK13
    have hP3 := Pos.back A.pos.1 D3.pos
    have hge := D3.pos.ge
    have hF3 : ∀ r ∈ F3, r = q ∨ Avail h1 r := by
      intro r hr
      rcases u13.sub r hr with h | h | h
      · exact Or.inl (by simpa using h)
      · cases h
      · exact Or.inr h
    have hZ3 : ∀ r, Z3 r → Z r ∨ (r = q ∨ Avail h1 r) := by
      intro r hr
      rcases hZ32 r hr with h | h | h
      · exact Or.inl h
      · rcases uq.sub r h with h | h | h
        · exact Or.inr (Or.inl (by simpa using h))
        · cases h
        · exact Or.inr (Or.inr h)
      · exact Or.inr (Or.inr (uq.frame.avail r h))
    obtain ⟨ku3, kvs3, rfl⟩ := H3.obj
    have hIs : Is E (.map l1) (.obj ku3 kvs3) := ⟨ku3, kvs3, rfl, by rw [H3.mem]; exact H3.unique, by rw [H3.mem]; exact hI3⟩
    have hh := eval_height m hm hlow (hlow.start hst)
    have hp := heights_put (m := E.keyMatch) acc k (.map l1)
    simp only [YV.height] at hp
    -- the anchor
    obtain ⟨Z4, hZ34, hZ4, hU4, hA4, hlow4⟩ : ∃ Z4 : Ptr → Prop, (∀ r, Z3 r → Z4 r) ∧ (∀ r, Z4 r → Z r ∨ (r = q ∨ Avail h1 r)) ∧ Used Z4 s3.h ∧
        Anch E Z4 s3.h s3.p.uses (sc1.add a (.map l1)) ∧ Low (B + m.size + 1) (sc1.add a (.map l1)) := by
      cases a with
      | none => exact ⟨Z3, fun _ => id, hZ3, hU3, hA3, hh.2.mono (by omega)⟩
      | some n =>
        refine ⟨fun r => Z3 r ∨ r ∈ F3, fun _ => Or.inl, ?_, ?_, hA3.add (fun _ => Or.inl) ?_ u13.good hIs (fun _ => Or.inr), (hh.2.mono (by omega)).cons (by simp only [YV.height]; omega)⟩
        · rintro r (hr | hr)
          · exact hZ3 r hr
          · exact Or.inr (hF3 r hr)
        · rintro r (hr | hr)
          · exact hU3 r hr
          · exact ⟨rep_ge u13.good.rep r hr, u13.good.live r hr⟩
        · rw [D3.uses n (hanc n rfl), hus]
          unfold useOf
          dsimp only
          rw [getUse_set, if_pos rfl]
    obtain ⟨s', e', D⟩ := blockA L N pick f r ind (B := B + m.size + 1) (A.entry L H hI (y := .map l1) en hIs a3 hP3 (by omega) hZ4 hU4 hA4) hpl.2.2.2.2 hlow4 (by omega) (by omega) he
    refine ⟨s', ?_, D.after (s := s) en (fun r hr => hS3 r (hS1' r (hS1 r hr))) (D3.root.trans hr1) (fun r hr => hZ34 r (hZ31 r hr)) hZ4 ?_⟩
    · have hne : 0 < k.length := List.length_pos_iff.mpr (neat_ne hpl.1.key)
      obtain ⟨c, hc1, hc2, -, -⟩ := entry_head hpl.1.key hpl.1.khead ((ADoc.head k a).drop k.length)
      have hhd : k ++ (ADoc.head k a).drop k.length = ADoc.head k a := by cases a <;> simp [ADoc.head]
      rw [hhd] at hc1
      rw [ADoc.lines, runLines_entry _ _ _ hc1 hc2 (by cases a <;> simp [ADoc.head] <;> omega), e1]
      show runLines E pick f _ _ = _
      rw [runLines_append, em]
      show runLines E pick f _ _ = _
      rw [runLines_append, e3]
      exact e'
    · intro n hn
      simp only [ADoc.anchors, List.mem_append, not_or, Option.mem_toList] at hn
      refine ⟨hn.2.2, ?_⟩
      rw [D3.uses n hn.2.1, hus]
      cases a with
      | none => rfl
      | some n' =>
        unfold useOf
        dsimp only
        rw [getUse_set, if_neg]
        rintro rfl
        exact hn.1 rfl

end

end Dxs.Yaml
