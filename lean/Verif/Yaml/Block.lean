import Verif.Yaml.Nested

/-!
# Blocks: mappings and lists, nested in each other
-/

namespace Dxs.Yaml

open Dxs.Heap

/-! ## The specification -/

/-- A block, as it is written: a mapping or a list. Deeper blocks have `n + 1` more spaces; in a list item that is a mapping the
second and later entries have two more spaces. -/
inductive YB
  | nil
  /-- An empty line or a comment. -/
  | skip (l : Bytes) (r : YB)
  /-- `k: v` -/
  | leaf (k v cmt : Bytes) (r : YB)
  /-- `k:`, and the block `b` under it. -/
  | sub (k cmt : Bytes) (n : Nat) (b r : YB)
  /-- `- v` -/
  | item (v cmt : Bytes) (r : YB)
  /-- `-` with `j` spaces behind it, and the block `b` under it. -/
  | nest (j n : Nat) (b r : YB)
  /-- `- k: v`, and more entries `m` of that item. -/
  | entry (k v cmt : Bytes) (m r : YB)
  /-- `- k:`, the mapping `b` under it, and more entries `m` of that item. -/
  | entrySub (k cmt : Bytes) (n : Nat) (b m r : YB)

/-- The lines of a block at the indentation `ind`. -/
def YB.lines (ind : Nat) : YB → List Bytes
  | .nil => []
  | .skip l r => l :: r.lines ind
  | .leaf k v cmt r => (List.replicate ind 32 ++ (k ++ [58, 32] ++ v ++ cmt)) :: r.lines ind
  | .sub k cmt n b r => (List.replicate ind 32 ++ (k ++ [58] ++ cmt)) :: (b.lines (ind + n + 1) ++ r.lines ind)
  | .item v cmt r => (List.replicate ind 32 ++ ([45, 32] ++ v ++ cmt)) :: r.lines ind
  | .nest j n b r => (List.replicate ind 32 ++ 45 :: List.replicate j 32) :: (b.lines (ind + n + 1) ++ r.lines ind)
  | .entry k v cmt m r => (List.replicate ind 32 ++ ([45, 32] ++ (k ++ [58, 32] ++ v) ++ cmt)) :: (m.lines (ind + 2) ++ r.lines ind)
  | .entrySub k cmt n b m r => (List.replicate ind 32 ++ ([45, 32] ++ (k ++ [58]) ++ cmt)) :: (b.lines (ind + 2 + n + 1) ++ (m.lines (ind + 2) ++ r.lines ind))

/-- Only entries of a mapping. -/
def YB.isMap : YB → Bool
  | .nil => true
  | .skip _ r | .leaf _ _ _ r | .sub _ _ _ _ r => r.isMap
  | _ => false

/-- Only items of a list. -/
def YB.isList : YB → Bool
  | .nil => true
  | .skip _ r | .item _ _ r | .nest _ _ _ r | .entry _ _ _ _ r | .entrySub _ _ _ _ _ r => r.isList
  | _ => false

/-- There is an entry or an item. -/
def YB.full : YB → Bool
  | .nil => false
  | .skip _ r => r.full
  | _ => true

/-- All entries are scalars. -/
def YB.flat : YB → Bool
  | .nil => true
  | .skip _ r | .leaf _ _ _ r => r.flat
  | _ => false

/-- The last item of the list goes on in deeper lines. -/
def YB.deep : YB → Bool
  | .skip _ r | .item _ _ r => r.deep
  | .nest _ _ _ r | .entrySub _ _ _ _ _ r => if r.full then r.deep else true
  | .entry _ _ _ m r => if r.full then r.deep else m.full
  | _ => false

/-- The names of a mapping. -/
def YB.names : YB → List Bytes
  | .skip _ r => r.names
  | .leaf k _ _ r | .sub k _ _ _ r => k :: r.names
  | _ => []

/-- An item `- v`: a scalar on one line; no entry, no list, no alias, no flow collection, no comment. -/
structure PlainItem (v : Bytes) : Prop where
  val : Neat v
  nl : 10 ∉ v
  comment : ¬[32, 35] <:+: [45, 32] ++ v
  entry : ¬[58, 32] <:+: v ∧ v.getLast? ≠ some 58
  list : v ≠ [45] ∧ ¬[45, 32] <+: v
  vhead : v.head? ≠ some 38 ∧ v.head? ≠ some 42 ∧ v.head? ≠ some 123 ∧ v.head? ≠ some 91

/-- The lines are plain, blocks are not empty and of one kind. A line `-` needs two bytes. -/
def YB.Plain (ind : Nat) : YB → Prop
  | .nil => True
  | .skip l r => SkipLine l ∧ r.Plain ind
  | .leaf k v cmt r => PlainLine k v ∧ Cmt cmt ∧ r.Plain ind
  | .sub k cmt n b r => (PlainKey k ∧ Cmt cmt ∧ b.full = true ∧ (b.isMap = true ∨ b.isList = true)) ∧ b.Plain (ind + n + 1) ∧ r.Plain ind
  | .item v cmt r => PlainItem v ∧ Cmt cmt ∧ r.Plain ind
  | .nest j n b r => (0 < ind + j ∧ b.full = true ∧ (b.isMap = true ∨ b.isList = true)) ∧ b.Plain (ind + n + 1) ∧ r.Plain ind
  | .entry k v cmt m r => (PlainLine k v ∧ Cmt cmt ∧ m.isMap = true) ∧ m.Plain (ind + 2) ∧ r.Plain ind
  | .entrySub k cmt n b m r => (PlainKey k ∧ Cmt cmt ∧ b.full = true ∧ b.isMap = true ∧ m.isMap = true ∧ (b.flat = true ∨ m.full = false)) ∧
      b.Plain (ind + 2 + n + 1) ∧ m.Plain (ind + 2) ∧ r.Plain ind

/-- In every mapping the names are different. -/
def YB.Different (E : Env) : YB → Prop
  | .nil => True
  | .skip _ r => r.Different E
  | .leaf k _ _ r => (∀ k' ∈ r.names, E.keyMatch k k' = false) ∧ r.Different E
  | .sub k _ _ b r => (∀ k' ∈ r.names, E.keyMatch k k' = false) ∧ b.Different E ∧ r.Different E
  | .item _ _ r => r.Different E
  | .nest _ _ b r => b.Different E ∧ r.Different E
  | .entry k _ _ m r => (∀ k' ∈ m.names, E.keyMatch k k' = false) ∧ m.Different E ∧ r.Different E
  | .entrySub k _ _ b m r => (∀ k' ∈ m.names, E.keyMatch k k' = false) ∧ b.Different E ∧ m.Different E ∧ r.Different E

mutual

/-- The members of the object are the entries of the mapping, in order. -/
inductive IsMap (E : Env) : List (Bytes × Val) → YB → Prop
  | nil : IsMap E [] .nil
  | skip {l r m} : IsMap E m r → IsMap E m (.skip l r)
  | leaf {k v cmt m r} : IsMap E m r → IsMap E ((k, scalar E v) :: m) (.leaf k v cmt r)
  | sub {k cmt n w m b r} : IsBlock E w b → IsMap E m r → IsMap E ((k, w) :: m) (.sub k cmt n b r)

/-- The elements of the array are the items of the list, in order. -/
inductive IsList (E : Env) : List Val → YB → Prop
  | nil : IsList E [] .nil
  | skip {l r m} : IsList E m r → IsList E m (.skip l r)
  | item {v cmt m r} : IsList E m r → IsList E (scalar E v :: m) (.item v cmt r)
  | nest {j n w m b r} : IsBlock E w b → IsList E m r → IsList E (w :: m) (.nest j n b r)
  | entry {k v cmt ku kvs m b r} : IsMap E (members E (.obj ku kvs)) (.leaf k v cmt b) → IsList E m r → IsList E (.obj ku kvs :: m) (.entry k v cmt b r)
  | entrySub {k cmt n ku kvs m b b' r} : IsMap E (members E (.obj ku kvs)) (.sub k cmt n b b') → IsList E m r →
      IsList E (.obj ku kvs :: m) (.entrySub k cmt n b b' r)

/-- The value of a block that is not empty: an object for a mapping, an array for a list. -/
inductive IsBlock (E : Env) : Val → YB → Prop
  | map {ku kvs b} : b.isMap = true → IsMap E (members E (.obj ku kvs)) b → IsBlock E (.obj ku kvs) b
  | list {xs b} : b.isList = true → IsList E xs b → IsBlock E (.arr xs) b

end

/-! ## Scalars that are items -/

theorem trim_sp {b : Bytes} (h : Neat b) : trim (32 :: b) = b := by
  have : trim (32 :: b) = trim b := by unfold trim; simp [isSp]
  rw [this, trim_neat h]

theorem trim_blank (j : Nat) : trim (List.replicate j 32) = [] := by
  have : (List.replicate j (32 : UInt8)).dropWhile isSp = [] := by
    induction j with
    | zero => rfl
    | succ j ih => rw [List.replicate_succ, List.dropWhile_cons, if_pos (by rfl), ih]
  unfold trim
  rw [this]; rfl

theorem splitKv_scalar {v : Bytes} (hn : Neat v) (h : ¬[58, 32] <:+: v ∧ v.getLast? ≠ some 58) : splitKv v = (v, [], false) := by
  unfold splitKv
  simp only [trim_neat hn]
  rcases hi : v.findIdx? (· == 58) with _ | i
  · rfl
  · obtain ⟨hlt, hc, -⟩ := List.findIdx?_eq_some_iff_getElem.mp hi
    have hc' : v[i] = 58 := by simpa using hc
    have hlast : i + 1 < v.length := by
      rcases Nat.lt_or_ge (i + 1) v.length with h1 | h1
      · exact h1
      · exfalso
        apply h.2
        rw [List.getLast?_eq_getElem?, List.getElem?_eq_getElem (by omega)]
        simp only [show v.length - 1 = i by omega, hc']
    dsimp only
    rw [if_pos hlast, if_neg]
    intro h32
    apply h.1
    refine ⟨v.take i, v.drop (i + 2), ?_⟩
    have e2 : v[i + 1] = 32 := by
      rw [List.getElem?_eq_getElem hlast] at h32; exact Option.some.inj h32
    have e : v = v.take i ++ v[i] :: v[i + 1] :: v.drop (i + 2) := by
      rw [List.getElem_cons_drop, List.getElem_cons_drop, List.take_append_drop]
    rw [hc', e2] at e
    rw [List.append_assoc]
    exact e.symm

/-- No comment in `- x` if there is none in `x` and `x` does not begin with `#`. -/
theorem hash_dash {x : Bytes} (h : ¬[32, 35] <:+: x) (hx : x.head? ≠ some 35) : ¬[32, 35] <:+: [45, 32] ++ x := by
  rintro ⟨a, b, e⟩
  rcases a with _ | ⟨a1, _ | ⟨a2, a⟩⟩
  · simp at e
  · simp at e
    rw [← e.2] at hx
    simp at hx
  · simp at e
    exact h ⟨a, b, by simpa using e.2.2⟩

/-! ## The stack between lines -/

/-- The indentation of the last line as `parseLine` counts it. -/
def eff (s : St) : Int := if s.p.first = true ∧ (s.p.stack.head?.map (·.isMap)) = some true then s.p.last + 2 else s.p.last

/-- The value `P` has been opened, and nothing has been put into it. -/
def Fresh (s : St) (ind : Nat) (P : YNode) (below : List YNode) : Prop := P.space < ind ∧ s.p.stack = P :: below ∧ eff s < ind

/-- Above `P` are the last entry of `P`, and what is deeper. -/
def In (s : St) (ind : Nat) (P : YNode) (below : List YNode) : Prop :=
  P.space < ind ∧ ∃ (up : List YNode) (e : YNode), s.p.stack = up ++ e :: P :: below ∧ (∀ n ∈ up, (ind : Int) ≤ n.space) ∧
    ((ind : Int) ≤ e.space ∨ (up.length ≤ 1 ∧ P.space ≤ e.space)) ∧ (up = [] → eff s = ind) ∧ (up ≠ [] → (ind : Int) < eff s)

/-- The next line at the indentation `ind` is for `P`. -/
def At (s : St) (ind : Nat) (P : YNode) (below : List YNode) : Prop := Fresh s ind P below ∨ In s ind P below

theorem closeTo_at {sp : Int} {P : YNode} (h : P.space < sp) (below : List YNode) : ∀ (r : List YNode), (∀ n ∈ r, sp ≤ n.space) → closeTo sp (r ++ P :: below) = P :: below
  | [], _ => by
    cases below with
    | nil => rfl
    | cons m r => simp [closeTo, h]
  | n :: r, hr => by
    have hn := hr n List.mem_cons_self
    have ih := closeTo_at h below r (fun n hn => hr n (List.mem_cons_of_mem _ hn))
    cases r with
    | nil => simp only [List.cons_append, List.nil_append] at ih ⊢; unfold closeTo; rw [if_neg (by omega)]; exact ih
    | cons m r => simp only [List.cons_append] at ih ⊢; unfold closeTo; rw [if_neg (by omega)]; exact ih

/-- What `parseLine` closes. -/
theorem at_pop {s : St} {ind : Nat} {P : YNode} {below : List YNode} (h : At s ind P below) :
    (if eff s > (ind : Int) then closeTo ind (s.p.stack.drop 2) else if eff s = (ind : Int) then s.p.stack.drop 1 else s.p.stack) = P :: below := by
  obtain ⟨_, hs, hl⟩ | ⟨hlt, up, e, hs, hu, he, h1, h2⟩ := h
  · rw [if_neg (by omega), if_neg (by omega), hs]
  · rw [hs]
    cases up with
    | nil => rw [h1 rfl, if_neg (by omega), if_pos rfl]; rfl
    | cons u up =>
      rw [if_pos (h2 (by simp))]
      cases up with
      | nil => exact closeTo_at hlt below [] (by simp)
      | cons u' up =>
        have := closeTo_at hlt below (up ++ [e]) (by
          intro n hn
          rcases List.mem_append.mp hn with hn | hn
          · exact hu n (by simp [hn])
          · simp at hn; subst hn
            rcases he with he | ⟨he, -⟩
            · exact he
            · simp at he)
        simpa using this

/-- A line after its pop. -/
theorem parseLine_pop {E : Env} {pick : Heap → Option Nat} {f : Nat} {s : St} {ind : Nat} {P : YNode} {below : List YNode} (h : At s ind P below)
    {text body : Bytes} {c : UInt8} (hc : text.head? = some c) (h35 : c ≠ 35) (hcut : cutComment text = body) :
    parseLine E pick f (List.replicate ind 32 ++ text) ind s =
      ((if c = 45 then parseArray E pick f (body.drop 1) ind { s with p := { s.p with stack := P :: below } }
        else parseObject E pick f body ind { s with p := { s.p with stack := P :: below } })).bind (fun s => .ok { s with p := { s.p with last := ind } }) := by
  have h2 := at_pop h
  unfold eff at h2
  unfold parseLine
  have hd : (List.replicate ind 32 ++ text).drop ind = text := by
    rw [List.drop_append_of_le_length (by simp)]; simp
  rw [hd]
  simp only [hc, if_neg h35, hcut, h2]
  split <;> rfl

/-- The state after a line that pushed `q`. -/
theorem In.push {s : St} {ind : Nat} {P : YNode} {below : List YNode} (h : At s ind P below) (p' : Parser) (h' : Heap) (q : Ptr) (hs : p'.stack = ⟨false, ind, q⟩ :: P :: below)
    (hl : p'.last = ind) : In ⟨p', h'⟩ ind P below := by
  refine ⟨h.elim (fun h => h.1) (fun h => h.1), [], ⟨false, ind, q⟩, hs, by simp, Or.inl (Int.le_refl _), fun _ => ?_, by simp⟩
  unfold eff
  simp [hs, hl]

/-- The position in what a line opened. -/
theorem Fresh.open {ind : Nat} {P : YNode} {below : List YNode} (p' : Parser) (h' : Heap) (q : Ptr) (hs : p'.stack = ⟨false, ind, q⟩ :: P :: below) (hl : p'.last = ind) {ind' : Nat} (hi : ind < ind') :
    Fresh ⟨p', h'⟩ ind' ⟨false, ind, q⟩ (P :: below) := by
  refine ⟨by simpa using hi, hs, ?_⟩
  unfold eff
  simp [hs, hl]
  omega

/-- Back from a deeper block. -/
theorem In.back {s : St} {ind ind' : Nat} {P C : YNode} {below : List YNode} (hp : P.space < ind) (hi : ind < ind') (hc : (ind : Int) ≤ C.space) (h : In s ind' C (P :: below)) : In s ind P below := by
  obtain ⟨hlt, up, e, hs, hu, he, h1, h2⟩ := h
  refine ⟨hp, up ++ [e], C, by rw [hs]; simp, ?_, Or.inl hc, by simp, fun _ => ?_⟩
  · intro n hn
    rcases List.mem_append.mp hn with hn | hn
    · have := hu n hn; omega
    · simp at hn; subst hn
      rcases he with he | ⟨-, he⟩ <;> omega
  · cases up with
    | nil => rw [h1 rfl]; omega
    | cons a b => have := h2 (by simp); omega

/-- Back from the mapping under the first entry of an item to the list. -/
theorem In.back2 {s : St} {ind ind' : Nat} {P Q C : YNode} {below : List YNode} (hp : P.space < ind) (hi : ind < ind') (hc : (ind : Int) ≤ C.space) (hq : (ind : Int) ≤ Q.space)
    (h : In s ind' C (Q :: P :: below)) : In s ind P below := by
  obtain ⟨hlt, up, e, hs, hu, he, h1, h2⟩ := h
  refine ⟨hp, up ++ [e, C], Q, by rw [hs]; simp, ?_, Or.inl hq, by simp, fun _ => ?_⟩
  · intro n hn
    rcases List.mem_append.mp hn with hn | hn
    · have := hu n hn; omega
    · simp at hn
      rcases hn with rfl | rfl
      · rcases he with he | ⟨-, he⟩ <;> omega
      · exact hc
  · cases up with
    | nil => rw [h1 rfl]; omega
    | cons a b => have := h2 (by simp); omega

/-- The state after `- k: v`, for more entries of the item. -/
theorem In.item {ind : Nat} {P : YNode} {below : List YNode} (p' : Parser) (h' : Heap) (q c : Ptr) (hf : p'.first = true) (hs : p'.stack = ⟨true, ind, c⟩ :: ⟨true, ind, q⟩ :: P :: below)
    (hl : p'.last = ind) : In ⟨p', h'⟩ (ind + 2) ⟨true, ind, q⟩ (P :: below) := by
  refine ⟨by simp; omega, [], ⟨true, ind, c⟩, hs, by simp, Or.inr ⟨by simp, Int.le_refl _⟩, fun _ => ?_, by simp⟩
  unfold eff
  simp [hf, hs, hl]

/-- The state after `- k:`, for the mapping under it. -/
theorem Fresh.item {ind : Nat} {P : YNode} {below : List YNode} (p' : Parser) (h' : Heap) (q c : Ptr) (hf : p'.first = true) (hs : p'.stack = ⟨true, ind, c⟩ :: ⟨true, ind, q⟩ :: P :: below)
    (hl : p'.last = ind) {ind' : Nat} (hi : ind + 2 < ind') : Fresh ⟨p', h'⟩ ind' ⟨true, ind, c⟩ (⟨true, ind, q⟩ :: P :: below) := by
  refine ⟨by simp; omega, hs, ?_⟩
  unfold eff
  simp [hf, hs, hl]
  omega

/-- Back from a flat mapping under the first entry to the other entries of the item. -/
theorem In.flatBack {s : St} {ind ind' : Nat} {P : YNode} {below : List YNode} {q c r : Ptr} (hi : ind + 2 < ind')
    (hs : s.p.stack = ⟨false, ind', r⟩ :: ⟨true, ind, c⟩ :: ⟨true, ind, q⟩ :: P :: below) (hl : s.p.last = ind') : In s (ind + 2) ⟨true, ind, q⟩ (P :: below) := by
  refine ⟨by simp; omega, [⟨false, ind', r⟩], ⟨true, ind, c⟩, hs, by simp; omega, Or.inr ⟨by simp, Int.le_refl _⟩, by simp, fun _ => ?_⟩
  unfold eff
  simp [hs, hl]
  omega

/-! ## What a line does -/

/-- The value is an array with the elements `xs`, or it will be reset to an empty one. -/
def ArrLike (x : Val) (xs : List Val) : Prop := x = .arr xs ∨ (xs = [] ∧ ∃ ku kvs, x = .obj ku kvs)

/-- The value is an object with the members `l`, or it has just been opened and will be reset to an empty one. -/
def MapLike (E : Env) (s : St) (ind : Nat) (P : YNode) (below : List YNode) (x : Val) (l : List (Bytes × Val)) : Prop :=
  Holds E x l ∨ (l = [] ∧ Fresh s ind P below ∧ 5 ≤ P.v ∧ x.vt ≠ .object)

theorem arrLike_ge {h : Heap} {p : Ptr} {x : Val} {F : List Ptr} {xs : List Val} (g : Good h (some p) x F) (ha : ArrLike x xs) : 5 ≤ p := by
  rcases ha with rfl | ⟨-, ku, kvs, rfl⟩
  · obtain ⟨F0, -, h, -⟩ := g.arr_inv; exact h
  · obtain ⟨F0, -, h, -⟩ := g.obj_inv; exact h

/-- `SetIndexCached(-1, t, …)` followed by an action on the node it returned. -/
theorem putItem_then {h : Heap} {p : Ptr} {xs : List Val} {F : List Ptr} (g : Good h (some p) (.arr xs) F) (t : VT) (ht : constOf t = none) (c : Option CId) (hc : ∀ d, c = some d → d < h.nextC) :
    ∃ q h1 b Fq, setIndexCached h p (-1) t c = (q, h1) ∧ 5 ≤ q ∧ Good h1 (some q) (blankVal t b) Fq ∧ h.nextC ≤ h1.nextC ∧
      ∀ h2 w' Fq', Upd h1 Fq h2 (some q) w' Fq' → ∃ F', Upd h F h2 (some p) (.arr (xs ++ [w'])) F' := by
  obtain ⟨w, F1, u, hk, hs, h5⟩ := setIndexCached_arr g (-1) t c hc
  obtain ⟨b, Fq, hb, gq, -, hupd⟩ := u.good.kid (kids_arrPut xs (-1) w)
  rw [hk] at hb
  cases hb
  have hput : ∀ w, arrPut xs (-1) w = .arr (xs ++ [w]) := fun w => rfl
  have hold : arrOld xs (-1) = none := rfl
  rw [hold] at hs
  obtain ⟨b, rfl⟩ := hs
  refine ⟨_, _, b, Fq, rfl, h5 (by rw [ht]; rfl), gq, ?_, ?_⟩
  · exact (g.inv.setIndexCached_st (X := anyCache) p (-1) t c hc (by simp)).nextC
  · intro h2 w' Fq' u2
    obtain ⟨F', u3⟩ := hupd [] h2 w' Fq' u2 (by simp)
    rw [setKid_arrPut, hput] at u3
    exact ⟨F', UpdX.trans u u3⟩

/-- `parseArray` on an array or on an object, up to the new item. -/
theorem arr_item (E : Env) (pick : Heap → Option Nat) (f : Nat) {s : St} {P : YNode} {below : List YNode} (hs : s.p.stack = P :: below) {x : Val} {F : List Ptr} {xs : List Val}
    (g : Good s.h (some P.v) x F) (ha : ArrLike x xs) (hc : ∀ d, s.p.cache = some d → d < s.h.nextC) (line : Bytes) (hl : line = [] ∨ line.head? = some 32) (ind : Int) :
    ∃ q h1 b Fq, 5 ≤ q ∧ s.h.nextC ≤ h1.nextC ∧ Good h1 (some q) (blankVal (if trim line ≠ [] then .string else .array) b) Fq ∧
      (∀ h2 w' Fq', Upd h1 Fq h2 (some q) w' Fq' → ∃ F', Upd s.h F h2 (some P.v) (.arr (xs ++ [w'])) F') ∧
      parseArray E pick f line ind s =
        (let l := trim line
         let s : St := ⟨{ s.p with stack := ⟨false, ind, q⟩ :: P :: below }, h1⟩
         if l = [] then .ok s
         else
           let (key, v, split) := splitKv l
           if !split then strVal1 E f s q key
           else if key = [] then .err (.yaml l)
           else do
             let s := { s with h := reset s.h q .object }
             let s := { s with p := { s.p with first := true, stack := s.p.stack.modifyHead (fun n => { n with isMap := true }) } }
             let (c, s) ←
               if v = [] then putKey E s q key .null
               else do
                 let (c, s) ← putKey E s q key .string
                 let s ← strVal1 E f s c v
                 .ok (c, s)
             .ok (push s true ind c)) := by
  obtain ⟨h0, F0, u0, e0, hn0⟩ : ∃ h0 F0, Upd s.h F h0 (some P.v) (.arr xs) F0 ∧ (if (s.h.mem P.v).dt = .object then { s with h := reset s.h P.v .array } else s) = { s with h := h0 } ∧ h0.nextC = s.h.nextC := by
    have h5 := arrLike_ge g ha
    have hdt := rep_dt g.rep
    rcases ha with rfl | ⟨rfl, ku, kvs, rfl⟩
    · exact ⟨s.h, F, g.upd_refl, by rw [if_neg (by rw [hdt]; simp [Val.vt])], rfl⟩
    · exact ⟨_, _, reset_upd g h5 .array, by rw [if_pos (by rw [hdt]; rfl)], reset_nextC ..⟩
  obtain ⟨q, h1, b, Fq, e1, h5, gq, hn, hup⟩ := putItem_then u0.good (if trim line ≠ [] then .string else .array) (by split <;> rfl) s.p.cache (by rw [hn0]; exact hc)
  refine ⟨q, h1, b, Fq, h5, hn0 ▸ hn, gq, ?_, ?_⟩
  · intro h2 w' Fq' u2
    obtain ⟨F', u3⟩ := hup h2 w' Fq' u2
    exact ⟨F', UpdX.trans (X := []) u0 u3⟩
  · unfold parseArray
    rw [if_neg (by rcases hl with h | h <;> simp [h])]
    simp only [hs, List.cons_ne_nil, if_false, List.head?_cons, e0]
    rw [if_pos (show (h0.mem P.v).dt = .array from rep_dt u0.good.rep)]
    simp only [e1]
    simp only [push, hs]

section
variable {s : St} {ind : Nat} {P : YNode} {below : List YNode}

/-- `- v` -/
theorem item_line (E : Env) (pick : Heap → Option Nat) (f : Nat) (hp : At s ind P below) {x : Val} {F : List Ptr} {xs : List Val}
    (g : Good s.h (some P.v) x F) (ha : ArrLike x xs) (hc : ∀ d, s.p.cache = some d → d < s.h.nextC) {v cmt : Bytes} (pl : PlainItem v) (hcm : Cmt cmt) :
    ∃ q h2 F', parseLine E pick f (List.replicate ind 32 ++ ([45, 32] ++ v ++ cmt)) ind s =
        .ok { p := { s.p with stack := ⟨false, ind, q⟩ :: P :: below, last := ind }, h := h2 } ∧
      Upd s.h F h2 (some P.v) (.arr (xs ++ [scalar E v])) F' := by
  rw [parseLine_pop hp (c := 45) rfl (by decide) (cut_cmt pl.comment (by simp) hcm), if_pos rfl]
  obtain ⟨q, h1, b, Fq, h5, -, gq, hup, e⟩ := arr_item E pick f (s := { s with p := { s.p with stack := P :: below } }) rfl g ha hc (32 :: v) (Or.inr rfl) ind
  have hvn := neat_ne pl.val
  have ht : trim (32 :: v) = v := trim_sp pl.val
  rw [show List.drop 1 ([45, 32] ++ v : Bytes) = 32 :: v from rfl, e]
  simp only [ht, if_neg hvn, splitKv_scalar pl.val pl.entry]
  simp only [ht, ne_eq, hvn, not_false_eq_true, if_true] at gq
  obtain ⟨h2, e2, u2⟩ := strVal1_plain E f ⟨{ s.p with stack := ⟨false, ind, q⟩ :: P :: below }, h1⟩ hvn pl.vhead gq h5
  obtain ⟨F', u⟩ := hup _ _ _ u2
  refine ⟨q, h2, F', ?_, u⟩
  simp only [Bool.not_false, if_true]
  rw [e2]
  rfl

/-- `-` -/
theorem nest_line (E : Env) (pick : Heap → Option Nat) (f : Nat) (hp : At s ind P below) {x : Val} {F : List Ptr} {xs : List Val}
    (g : Good s.h (some P.v) x F) (ha : ArrLike x xs) (hc : ∀ d, s.p.cache = some d → d < s.h.nextC) (j : Nat) :
    ∃ q h1 Fq, parseLine E pick f (List.replicate ind 32 ++ 45 :: List.replicate j 32) ind s =
        .ok { p := { s.p with stack := ⟨false, ind, q⟩ :: P :: below, last := ind }, h := h1 } ∧ 5 ≤ q ∧ Good h1 (some q) (.arr []) Fq ∧
      ∀ h2 w' Fq', Upd h1 Fq h2 (some q) w' Fq' → ∃ F', Upd s.h F h2 (some P.v) (.arr (xs ++ [w'])) F' := by
  have hh : ¬[32, 35] <:+: (45 :: List.replicate j (32 : UInt8)) := by
    intro h
    have : (35 : UInt8) ∈ (45 :: List.replicate j (32 : UInt8)) := h.subset (by simp)
    simp at this
  have hcut : cutComment (45 :: List.replicate j (32 : UInt8)) = 45 :: List.replicate j 32 := by
    unfold cutComment; rw [hashIdx_none hh]
  rw [parseLine_pop hp (c := 45) rfl (by decide) hcut, if_pos rfl]
  obtain ⟨q, h1, b, Fq, h5, -, gq, hup, e⟩ := arr_item E pick f (s := { s with p := { s.p with stack := P :: below } }) rfl g ha hc (List.replicate j 32)
    (by cases j with | zero => exact Or.inl rfl | succ j => exact Or.inr rfl) ind
  have ht := trim_blank j
  rw [List.drop_succ_cons, List.drop_zero, e]
  simp only [ht, if_true]
  simp only [ht, ne_eq, not_true_eq_false, if_false] at gq
  exact ⟨q, h1, Fq, rfl, h5, gq, hup⟩

/-- `- k: v` -/
theorem entry_line {E : Env} (L : KeyLaws E) (pick : Heap → Option Nat) (f : Nat) (hp : At s ind P below) {x : Val} {F : List Ptr} {xs : List Val}
    (g : Good s.h (some P.v) x F) (ha : ArrLike x xs) (hc : ∀ d, s.p.cache = some d → d < s.h.nextC) {k v cmt : Bytes} (pl : PlainLine k v) (hcm : Cmt cmt) :
    ∃ q c h1 xq Fq, parseLine E pick f (List.replicate ind 32 ++ ([45, 32] ++ (k ++ [58, 32] ++ v) ++ cmt)) ind s =
        .ok { p := { s.p with first := true, stack := ⟨true, ind, c⟩ :: ⟨true, ind, q⟩ :: P :: below, last := ind }, h := h1 } ∧
      Good h1 (some q) xq Fq ∧ Holds E xq [(k, scalar E v)] ∧
      ∀ h2 w' Fq', Upd h1 Fq h2 (some q) w' Fq' → ∃ F', Upd s.h F h2 (some P.v) (.arr (xs ++ [w'])) F' := by
  have hcomm : ¬[32, 35] <:+: [45, 32] ++ (k ++ [58, 32] ++ v) := hash_dash pl.comment (by
    obtain ⟨c, h1, -, h35, -⟩ := entry_head pl.key pl.khead ([58, 32] ++ v)
    rw [List.append_assoc, h1]; simpa using h35)
  rw [parseLine_pop hp (c := 45) rfl (by decide) (cut_cmt hcomm (by simp) hcm), if_pos rfl]
  obtain ⟨q, h1, b, Fq, h5, hn, gq, hup, e⟩ := arr_item E pick f (s := { s with p := { s.p with stack := P :: below } }) rfl g ha hc (32 :: (k ++ [58, 32] ++ v)) (Or.inr rfl) ind
  have hkn := neat_ne pl.key
  have hvn := neat_ne pl.val
  have ht : trim (32 :: (k ++ [58, 32] ++ v)) = k ++ [58, 32] ++ v := trim_sp (neat_append pl.key pl.val)
  have hln : k ++ [58, 32] ++ v ≠ [] := by simp
  rw [show List.drop 1 ([45, 32] ++ (k ++ [58, 32] ++ v) : Bytes) = 32 :: (k ++ [58, 32] ++ v) from rfl, e]
  simp only [ht, if_neg hln, splitKv_plain pl]
  simp only [ht, ne_eq, hln, not_false_eq_true, if_true] at gq
  have u1 := reset_upd gq h5 .object
  obtain ⟨c, h2, w, e1, h5c, hsl, Fc, gc, hupd⟩ := putKey_then E (s := ⟨{ s.p with first := true, stack := ⟨true, ind, q⟩ :: P :: below }, reset h1 q .object⟩) (ku := false) (kvs := []) u1.good
    (by rw [reset_nextC]; exact fun d hd => Nat.lt_of_lt_of_le (hc d hd) hn) k .string (by simp [objOld, indexByName])
  have hwv := hsl.vt
  obtain ⟨s0, rfl⟩ : ∃ s0, w = .str s0 := by cases w <;> simp [Val.vt] at hwv <;> exact ⟨_, rfl⟩
  obtain ⟨h3, e3, u3⟩ := strVal1_plain E f ⟨{ s.p with first := true, stack := ⟨true, ind, q⟩ :: P :: below }, h2⟩ hvn pl.vhead gc h5c
  obtain ⟨Fq', u4⟩ := hupd _ _ _ u3
  have u5 := UpdX.trans (X := []) u1 u4
  have H := (Holds.put (m := []) (ku := false) (kvs := []) L ⟨⟨_, _, rfl⟩, rfl, List.Pairwise.nil, by simp⟩ k (scalar_ne_nil E v) : Holds E _ _)
  refine ⟨q, c, h3, _, Fq', ?_, u5.good, H, ?_⟩
  · simp only [Bool.not_true, Bool.false_eq_true, if_false, if_neg hkn, if_neg hvn, List.modifyHead_cons, bind]
    rw [e1]
    simp only [Res.bind]
    rw [e3]
    rfl
  · intro h2 w' Fq'' u
    exact hup _ _ _ (UpdX.trans (X := []) u5 u)

/-- `- k:` -/
theorem entrySub_line {E : Env} (L : KeyLaws E) (pick : Heap → Option Nat) (f : Nat) (hp : At s ind P below) {x : Val} {F : List Ptr} {xs : List Val}
    (g : Good s.h (some P.v) x F) (ha : ArrLike x xs) (hc : ∀ d, s.p.cache = some d → d < s.h.nextC) {k cmt : Bytes} (pl : PlainKey k) (hcm : Cmt cmt) :
    ∃ q c h1 w Fc hq Fq, parseLine E pick f (List.replicate ind 32 ++ ([45, 32] ++ (k ++ [58]) ++ cmt)) ind s =
        .ok { p := { s.p with first := true, stack := ⟨true, ind, c⟩ :: ⟨true, ind, q⟩ :: P :: below, last := ind }, h := h1 } ∧
      5 ≤ c ∧ Good h1 (some c) w Fc ∧ w.vt ≠ .object ∧
      (∀ h2 w' Fc', w' ≠ .nil → Upd h1 Fc h2 (some c) w' Fc' → ∃ xq Fq', Upd hq Fq h2 (some q) xq Fq' ∧ Holds E xq [(k, w')]) ∧
      ∀ h2 w' Fq', Upd hq Fq h2 (some q) w' Fq' → ∃ F', Upd s.h F h2 (some P.v) (.arr (xs ++ [w'])) F' := by
  have hkn := neat_ne pl.key
  have hneat : Neat (k ++ [58]) := by
    obtain ⟨⟨c, hc, h1⟩, -⟩ := pl.key
    refine ⟨⟨c, ?_, h1⟩, ⟨58, by simp, by decide⟩⟩
    cases k with
    | nil => cases hc
    | cons x r => simpa using hc
  have hcomm : ¬[32, 35] <:+: [45, 32] ++ (k ++ [58]) := hash_dash (hash_key pl.comment) (by
    obtain ⟨c, h1, -, h35, -⟩ := entry_head pl.key pl.khead [58]
    rw [h1]; simpa using h35)
  rw [parseLine_pop hp (c := 45) rfl (by decide) (cut_cmt hcomm (by simp) hcm), if_pos rfl]
  obtain ⟨q, h1, b, Fq, h5, hn, gq, hup, e⟩ := arr_item E pick f (s := { s with p := { s.p with stack := P :: below } }) rfl g ha hc (32 :: (k ++ [58])) (Or.inr rfl) ind
  have ht : trim (32 :: (k ++ [58])) = k ++ [58] := trim_sp hneat
  have hln : k ++ [58] ≠ [] := by simp
  rw [show List.drop 1 ([45, 32] ++ (k ++ [58]) : Bytes) = 32 :: (k ++ [58]) from rfl, e]
  simp only [ht, if_neg hln, splitKv_key pl]
  simp only [ht, ne_eq, hln, not_false_eq_true, if_true] at gq
  have u1 := reset_upd gq h5 .object
  obtain ⟨c, h2, w, e1, h5c, hsl, Fc, gc, hupd⟩ := putKey_then E (s := ⟨{ s.p with first := true, stack := ⟨true, ind, q⟩ :: P :: below }, reset h1 q .object⟩) (ku := false) (kvs := []) u1.good
    (by rw [reset_nextC]; exact fun d hd => Nat.lt_of_lt_of_le (hc d hd) hn) k .null (by simp [objOld, indexByName])
  refine ⟨q, c, h2, w, Fc, reset h1 q .object, [q], ?_, h5c, gc, by rw [hsl.vt.1]; decide, ?_, ?_⟩
  · simp only [Bool.not_true, Bool.false_eq_true, if_false, if_neg hkn, if_true, List.modifyHead_cons, bind]
    rw [e1]
    rfl
  · intro h3 w' Fc' hw u
    obtain ⟨F', u'⟩ := hupd _ _ _ u
    exact ⟨_, F', u', Holds.put (m := []) (ku := false) (kvs := []) L ⟨⟨_, _, rfl⟩, rfl, List.Pairwise.nil, by simp⟩ k hw⟩
  · intro h2 w' Fq'' u
    exact hup _ _ _ (UpdX.trans (X := []) u1 u)

/-- A mapping line in a value that has just been opened: the value is reset to an object before. -/
theorem parseObject_fresh (E : Env) (pick : Heap → Option Nat) (f : Nat) {line k v : Bytes} {sp : Bool} (hf : Fresh s ind P below) (hs : splitKv line = (k, v, sp)) (hk : k ≠ [])
    (hd : (s.h.mem P.v).dt ≠ .object) (hd' : ((reset s.h P.v .object).mem P.v).dt = .object) :
    parseObject E pick f line ind s = parseObject E pick f line ind { s with h := reset s.h P.v .object } := by
  obtain ⟨hlt, hst, he⟩ := hf
  unfold eff at he
  rw [hst] at he
  simp only [List.head?_cons, Option.map_some, Option.some.injEq] at he
  unfold parseObject
  simp only [hst, List.cons_ne_nil, if_false, List.head?_cons, hs, false_and, not_false_eq_true, true_and]
  rw [if_neg (by omega), if_pos (by omega), if_neg (by omega), if_pos (by omega)]
  unfold objChild
  simp only [if_neg hk]
  rw [if_neg hd, if_pos hd']

/-- The object a mapping line works on. -/
theorem mapLike_obj {E : Env} (pick : Heap → Option Nat) (f : Nat) {x : Val} {F : List Ptr} {l : List (Bytes × Val)}
    (g : Good s.h (some P.v) x F) (ha : MapLike E s ind P below x l) {line k v : Bytes} {sp : Bool} (hs : splitKv line = (k, v, sp)) (hk : k ≠ []) :
    ∃ h0 ku kvs F0, Upd s.h F h0 (some P.v) (.obj ku kvs) F0 ∧ Holds E (.obj ku kvs) l ∧ h0.nextC = s.h.nextC ∧
      parseObject E pick f line ind { s with p := { s.p with stack := P :: below } } = parseObject E pick f line ind { p := { s.p with stack := P :: below }, h := h0 } := by
  rcases ha with H | ⟨rfl, hf, h5, hv⟩
  · obtain ⟨ku, kvs, rfl⟩ := H.obj
    exact ⟨s.h, ku, kvs, F, g.upd_refl, H, rfl, rfl⟩
  · have u := reset_upd g h5 .object
    refine ⟨_, false, [], _, u, ⟨⟨_, _, rfl⟩, rfl, List.Pairwise.nil, by simp⟩, reset_nextC .., ?_⟩
    have hst := hf.2.1
    have e : ({ s with p := { s.p with stack := P :: below } } : St) = s := by rw [← hst]
    rw [e, parseObject_fresh E pick f hf hs hk (by rw [rep_dt g.rep]; exact hv) (rep_dt u.good.rep), ← hst]

/-- `k: v` -/
theorem leaf_at {E : Env} (L : KeyLaws E) (pick : Heap → Option Nat) (f : Nat) (hp : At s ind P below) {x : Val} {F : List Ptr} {l : List (Bytes × Val)}
    (g : Good s.h (some P.v) x F) (ha : MapLike E s ind P below x l) (hc : ∀ d, s.p.cache = some d → d < s.h.nextC) {k v cmt : Bytes} (hnew : ∀ kv ∈ l, E.keyMatch kv.1 k = false)
    (pl : PlainLine k v) (hcm : Cmt cmt) :
    ∃ q h2 x2 F', parseLine E pick f (List.replicate ind 32 ++ (k ++ [58, 32] ++ v ++ cmt)) ind s =
        .ok { p := { s.p with first := false, stack := ⟨false, ind, q⟩ :: P :: below, last := ind }, h := h2 } ∧
      Upd s.h F h2 (some P.v) x2 F' ∧ Holds E x2 (l ++ [(k, scalar E v)]) := by
  obtain ⟨c, h1, -, h35, h45⟩ := entry_head pl.key pl.khead ([58, 32] ++ v ++ cmt)
  have hl : 1 < (k ++ [58, 32] ++ v).length := by simp; omega
  obtain ⟨h0, ku, kvs, F0, u0, H, hn, e0⟩ := mapLike_obj pick f g ha (splitKv_plain pl) (neat_ne pl.key)
  obtain ⟨q, h2, F', e, u⟩ := obj_leaf E pick f (s := { p := { s.p with stack := P :: below }, h := h0 }) (b := P.isMap) (spp := P.space) (p := P.v) rfl u0.good (by rw [hn]; exact hc)
    (by rw [objOld_members L ku kvs (by rw [H.mem]; exact H.unique), H.mem, Assoc_get_new hnew]; simp) pl ind
  have H2 := H.put L k (scalar_ne_nil E v)
  rw [Assoc.put_new hnew] at H2
  refine ⟨q, h2, _, F', ?_, UpdX.trans (X := []) u0 u, H2⟩
  rw [parseLine_pop hp (by simpa using h1) h35 (cut_cmt pl.comment hl hcm), if_neg h45, e0, e]
  rfl

/-- `k:` -/
theorem sub_at {E : Env} (L : KeyLaws E) (pick : Heap → Option Nat) (f : Nat) (hp : At s ind P below) {x : Val} {F : List Ptr} {l : List (Bytes × Val)}
    (g : Good s.h (some P.v) x F) (ha : MapLike E s ind P below x l) (hc : ∀ d, s.p.cache = some d → d < s.h.nextC) {k cmt : Bytes} (hnew : ∀ kv ∈ l, E.keyMatch kv.1 k = false)
    (pl : PlainKey k) (hcm : Cmt cmt) :
    ∃ q h1 Fq, parseLine E pick f (List.replicate ind 32 ++ (k ++ [58] ++ cmt)) ind s =
        .ok { p := { s.p with first := false, stack := ⟨false, ind, q⟩ :: P :: below, last := ind }, h := h1 } ∧
      Good h1 (some q) (.obj false []) Fq ∧
      ∀ h2 w' Fq', w' ≠ .nil → Upd h1 Fq h2 (some q) w' Fq' → ∃ x2 F', Upd s.h F h2 (some P.v) x2 F' ∧ Holds E x2 (l ++ [(k, w')]) := by
  obtain ⟨c, h1, -, h35, h45⟩ := entry_head pl.key pl.khead ([58] ++ cmt)
  have hl : 1 < (k ++ [58]).length := by have := List.length_pos_iff.mpr (neat_ne pl.key); simp; omega
  obtain ⟨h0, ku, kvs, F0, u0, H, hn, e0⟩ := mapLike_obj pick f g ha (splitKv_key pl) (neat_ne pl.key)
  obtain ⟨q, h2, F', e, gq, hup⟩ := obj_sub E pick f (s := { p := { s.p with stack := P :: below }, h := h0 }) (b := P.isMap) (spp := P.space) (p := P.v) rfl u0.good (by rw [hn]; exact hc)
    (by rw [objOld_members L ku kvs (by rw [H.mem]; exact H.unique), H.mem, Assoc_get_new hnew]) pl ind
  refine ⟨q, h2, F', ?_, gq, ?_⟩
  · rw [parseLine_pop hp (by simpa using h1) h35 (cut_cmt (hash_key pl.comment) hl hcm), if_neg h45, e0, e]
    rfl
  · intro h3 w' Fq' hw u
    obtain ⟨F3, u3⟩ := hup _ _ _ u
    have H2 := H.put L k hw
    rw [Assoc.put_new hnew] at H2
    exact ⟨_, F3, UpdX.trans (X := []) u0 u3, H2⟩

end

/-! ## Blocks -/

theorem runLines_idle (E : Env) (pick : Heap → Option Nat) (f : Nat) : ∀ (d : YB) (ind : Nat) (s : St), d.Plain ind → d.full = false → runLines E pick f (d.lines ind) s = .ok s
  | .nil, _, _, _, _ => rfl
  | .skip l r, ind, s, h, hf => by rw [YB.lines, runLines_skip _ _ _ h.1]; exact runLines_idle E pick f r ind s h.2 hf
  | .leaf .., _, _, _, h | .sub .., _, _, _, h | .item .., _, _, _, h | .nest .., _, _, _, h | .entry .., _, _, _, h | .entrySub .., _, _, _, h => by cases h

theorem isMap_idle (E : Env) : ∀ d : YB, d.isMap = true → d.full = false → IsMap E [] d
  | .nil, _, _ => .nil
  | .skip _ r, h, h' => .skip (isMap_idle E r h h')
  | .leaf .., _, h | .sub .., _, h | .item .., _, h | .nest .., _, h | .entry .., _, h | .entrySub .., _, h => by cases h

/-- What the lines of a mapping do. -/
structure MapDone (E : Env) (X : List Ptr) (h0 : Heap) (S : Ptr → Prop) (d : YB) (ind : Nat) (P : YNode) (below : List YNode) (s : St) (F : List Ptr) (l0 : List (Bytes × Val)) (s' : St) (x' : Val)
    (l1 : List (Bytes × Val)) : Prop where
  next : Next X h0 S s'
  pos : At s' ind P below
  inn : In s ind P below ∨ d.full = true → In s' ind P below
  root : s'.p.root = s.p.root
  upd : ∃ F', Upd s.h F s'.h (some P.v) x' F'
  like : MapLike E s' ind P below x' (l0 ++ l1)
  holds : d.full = true → Holds E x' (l0 ++ l1)
  fits : IsMap E l1 d
  flat : d.full = true → d.flat = true → ∃ q, s'.p.stack = ⟨false, ind, q⟩ :: P :: below ∧ s'.p.last = ind
  low : d.full = true ∨ (ind : Int) ≤ s.p.last → (ind : Int) ≤ s'.p.last

/-- What the lines of a list do. -/
structure ListDone (E : Env) (X : List Ptr) (h0 : Heap) (S : Ptr → Prop) (d : YB) (ind : Nat) (P : YNode) (below : List YNode) (s : St) (F : List Ptr) (xs : List Val) (s' : St) (x' : Val)
    (ys : List Val) : Prop where
  next : Next X h0 S s'
  pos : At s' ind P below
  inn : In s ind P below ∨ d.full = true → In s' ind P below
  root : s'.p.root = s.p.root
  upd : ∃ F', Upd s.h F s'.h (some P.v) x' F'
  like : ArrLike x' (xs ++ ys)
  holds : d.full = true → x' = .arr (xs ++ ys)
  fits : IsList E ys d
  low : d.full = true ∨ (ind : Int) ≤ s.p.last → (ind : Int) ≤ s'.p.last
  deep : d.deep = true → (ind : Int) < s'.p.last

section
variable {X : List Ptr} {h0 : Heap}

/-- The lines of a block put its entries or items behind what is there. -/
theorem blocks {E : Env} (L : KeyLaws E) (pick : Heap → Option Nat) (f : Nat) : ∀ (d : YB) (ind : Nat) {S : Ptr → Prop} {s : St} {P : YNode} {below : List YNode}
    {x : Val} {F : List Ptr}, Fine X h0 S s → At s ind P below → Good s.h (some P.v) x F → d.Plain ind → d.Different E →
    (d.isMap = true → ∀ l0, MapLike E s ind P below x l0 → (∀ kv ∈ l0, ∀ k ∈ d.names, E.keyMatch kv.1 k = false) →
      ∃ s' x' l1, runLines E pick f (d.lines ind) s = .ok s' ∧ MapDone E X h0 S d ind P below s F l0 s' x' l1) ∧
    (d.isList = true → ∀ xs, ArrLike x xs → ∃ s' x' ys, runLines E pick f (d.lines ind) s = .ok s' ∧ ListDone E X h0 S d ind P below s F xs s' x' ys)
  | .nil, ind, S, s, P, below, x, F, a, hp, g, _, _ => by
    refine ⟨fun _ l0 H _ => ⟨s, x, [], rfl, ⟨S, fun _ => id, a⟩, hp, ?_, rfl, ⟨F, g.upd_refl⟩, by simpa using H, nofun, .nil, nofun, fun h => h.resolve_left (by simp [YB.full])⟩,
      fun _ xs H => ⟨s, x, [], rfl, ⟨S, fun _ => id, a⟩, hp, ?_, rfl, ⟨F, g.upd_refl⟩, by simpa using H, nofun, .nil, fun h => h.resolve_left (by simp [YB.full]), nofun⟩⟩
    all_goals
      rintro (h | h)
      · exact h
      · cases h
  | .skip l r, ind, S, s, P, below, x, F, a, hp, g, hpl, hdf => by
    have ih := blocks L pick f r ind a hp g hpl.2 hdf
    refine ⟨fun hm l0 H hk => ?_, fun hm xs H => ?_⟩
    · obtain ⟨s', x', l1, e, D⟩ := ih.1 hm l0 H hk
      exact ⟨s', x', l1, by rw [YB.lines, runLines_skip _ _ _ hpl.1]; exact e, D.next, D.pos, D.inn, D.root, D.upd, D.like, D.holds, D.fits.skip, D.flat, D.low⟩
    · obtain ⟨s', x', l1, e, D⟩ := ih.2 hm xs H
      exact ⟨s', x', l1, by rw [YB.lines, runLines_skip _ _ _ hpl.1]; exact e, D.next, D.pos, D.inn, D.root, D.upd, D.like, D.holds, D.fits.skip, D.low, D.deep⟩
  | .leaf k v cmt r, ind, S, s, P, below, x, F, a, hp, g, hpl, hdf => by
    refine ⟨fun hm l0 H hk => ?_, nofun⟩
    obtain ⟨c, hc1, hc2, -, -⟩ := entry_head hpl.1.key hpl.1.khead ([58, 32] ++ v ++ cmt)
    obtain ⟨q, h2, x2, F2, e, u, H2⟩ := leaf_at L pick f hp g H a.cache (fun kv hkv => hk kv hkv k List.mem_cons_self) hpl.1 hpl.2.1
    obtain ⟨S2, hS, a2⟩ := parseLine_fine a e
    have hk2 : ∀ kv ∈ l0 ++ [(k, scalar E v)], ∀ k' ∈ r.names, E.keyMatch kv.1 k' = false := by
      intro kv hkv k' hk'
      rcases List.mem_append.mp hkv with h | h
      · exact hk kv h k' (List.mem_cons_of_mem _ hk')
      · simp at h; subst h; exact hdf.1 k' hk'
    have hin := In.push hp { s.p with first := false, stack := ⟨false, ind, q⟩ :: P :: below, last := ind } h2 q rfl rfl
    obtain ⟨s', x', l1, e', D⟩ := (blocks L pick f r ind a2 (Or.inr hin) u.good hpl.2.2 hdf.2).1 hm _ (Or.inl H2) hk2
    have hi := D.inn (Or.inl hin)
    obtain ⟨F', u'⟩ := D.upd
    have hH : Holds E x' (l0 ++ (k, scalar E v) :: l1) := by
      rcases D.like with h | ⟨h, -⟩
      · simpa using h
      · simp at h
    refine ⟨s', x', (k, scalar E v) :: l1, ?_, D.next.after hS, Or.inr hi, fun _ => hi, D.root, ⟨F', UpdX.trans (X := []) u u'⟩, Or.inl hH, fun _ => hH, D.fits.leaf, ?_, fun _ => D.low (Or.inr (Int.le_refl _))⟩
    · rw [YB.lines, runLines_entry _ _ _ (by simpa using hc1) hc2 (by simp; omega), e]
      exact e'
    · intro _ hfl
      by_cases hr : r.full = true
      · exact D.flat hr hfl
      · have := runLines_idle E pick f r ind { p := { s.p with first := false, stack := ⟨false, ind, q⟩ :: P :: below, last := ind }, h := h2 } hpl.2.2 (by simpa using hr)
        rw [this] at e'
        cases e'
        exact ⟨q, rfl, rfl⟩
  | .sub k cmt n b r, ind, S, s, P, below, x, F, a, hp, g, hpl, hdf => by
    refine ⟨fun hm l0 H hk => ?_, nofun⟩
    obtain ⟨c, hc1, hc2, -, -⟩ := entry_head hpl.1.1.key hpl.1.1.khead ([58] ++ cmt)
    obtain ⟨q, h1, Fq, e, gq, hup⟩ := sub_at L pick f hp g H a.cache (fun kv hkv => hk kv hkv k List.mem_cons_self) hpl.1.1 hpl.1.2.1
    obtain ⟨S2, hS, a2⟩ := parseLine_fine a e
    have hps : P.space < ind := hp.elim (fun h => h.1) (fun h => h.1)
    have hfr := Fresh.open { s.p with first := false, stack := ⟨false, ind, q⟩ :: P :: below, last := ind } h1 q rfl rfl (show ind < ind + n + 1 by omega)
    have ihb := blocks L pick f b (ind + n + 1) a2 (Or.inl hfr) gq hpl.2.1 hdf.2.1
    obtain ⟨s3, w, e3, ⟨S3, hS3, a3⟩, hin3, hr3, ⟨F3, u3⟩, hw, hbl, hlow⟩ : ∃ s3 w, runLines E pick f (b.lines (ind + n + 1)) { p := { s.p with first := false, stack := ⟨false, ind, q⟩ :: P :: below, last := ind }, h := h1 } = .ok s3 ∧
        Next X h0 S2 s3 ∧ In s3 (ind + n + 1) ⟨false, ind, q⟩ (P :: below) ∧ s3.p.root = s.p.root ∧ (∃ F', Upd h1 Fq s3.h (some q) w F') ∧ w ≠ .nil ∧ IsBlock E w b ∧ ((ind + n + 1 : Nat) : Int) ≤ s3.p.last := by
      rcases hpl.1.2.2.2 with hb | hb
      · obtain ⟨s3, x3, l3, e3, D⟩ := ihb.1 hb [] (Or.inl ⟨⟨_, _, rfl⟩, rfl, List.Pairwise.nil, by simp⟩) (by simp)
        have H3 := D.holds hpl.1.2.2.1
        obtain ⟨ku, kvs, rfl⟩ := H3.obj
        exact ⟨s3, _, e3, D.next, D.inn (Or.inr hpl.1.2.2.1), D.root, D.upd, by simp, .map hb (by rw [H3.mem]; simpa using D.fits), D.low (Or.inl (by first | exact hpl.1.2.2.1 | exact hpl.1.2.1))⟩
      · obtain ⟨s3, x3, l3, e3, D⟩ := ihb.2 hb [] (Or.inr ⟨rfl, _, _, rfl⟩)
        have H3 := D.holds hpl.1.2.2.1
        subst H3
        exact ⟨s3, _, e3, D.next, D.inn (Or.inr hpl.1.2.2.1), D.root, D.upd, by simp, .list hb (by simpa using D.fits), D.low (Or.inl (by first | exact hpl.1.2.2.1 | exact hpl.1.2.1))⟩
    obtain ⟨x4, F4, u4, H4⟩ := hup _ _ _ hw u3
    have hk2 : ∀ kv ∈ l0 ++ [(k, w)], ∀ k' ∈ r.names, E.keyMatch kv.1 k' = false := by
      intro kv hkv k' hk'
      rcases List.mem_append.mp hkv with h | h
      · exact hk kv h k' (List.mem_cons_of_mem _ hk')
      · simp at h; subst h; exact hdf.1 k' hk'
    have hin4 : In s3 ind P below := In.back hps (by omega) (Int.le_refl _) hin3
    obtain ⟨s', x', l1, e', D⟩ := (blocks L pick f r ind a3 (Or.inr hin4) u4.good hpl.2.2 hdf.2.2).1 hm _ (Or.inl H4) hk2
    have hi := D.inn (Or.inl hin4)
    obtain ⟨F', u'⟩ := D.upd
    have hH : Holds E x' (l0 ++ (k, w) :: l1) := by
      rcases D.like with h | ⟨h, -⟩
      · simpa using h
      · simp at h
    refine ⟨s', x', (k, w) :: l1, ?_, (D.next.after hS3).after hS, Or.inr hi, fun _ => hi, D.root.trans hr3, ⟨F', UpdX.trans (X := []) u4 u'⟩, Or.inl hH, fun _ => hH, D.fits.sub hbl, nofun, fun _ => D.low (Or.inr (by omega))⟩
    have hl : 0 < k.length := List.length_pos_iff.mpr (neat_ne hpl.1.1.key)
    rw [YB.lines, runLines_entry _ _ _ (by simpa using hc1) hc2 (by simp; omega), e]
    show runLines E pick f (b.lines (ind + n + 1) ++ r.lines ind) _ = _
    rw [runLines_append, e3]
    exact e'
  | .item v cmt r, ind, S, s, P, below, x, F, a, hp, g, hpl, hdf => by
    refine ⟨nofun, fun hm xs H => ?_⟩
    obtain ⟨q, h2, F2, e, u⟩ := item_line E pick f hp g H a.cache hpl.1 hpl.2.1
    obtain ⟨S2, hS, a2⟩ := parseLine_fine a e
    have hin := In.push hp { s.p with stack := ⟨false, ind, q⟩ :: P :: below, last := ind } h2 q rfl rfl
    obtain ⟨s', x', ys, e', D⟩ := (blocks L pick f r ind a2 (Or.inr hin) u.good hpl.2.2 hdf).2 hm _ (Or.inl rfl)
    have hi := D.inn (Or.inl hin)
    obtain ⟨F', u'⟩ := D.upd
    have hH : x' = .arr (xs ++ scalar E v :: ys) := by
      rcases D.like with h | ⟨h, -⟩
      · simpa using h
      · simp at h
    refine ⟨s', x', scalar E v :: ys, ?_, D.next.after hS, Or.inr hi, fun _ => hi, D.root, ⟨F', UpdX.trans (X := []) u u'⟩, Or.inl hH, fun _ => hH, D.fits.item, fun _ => D.low (Or.inr (Int.le_refl _)), D.deep⟩
    rw [YB.lines, runLines_entry _ _ _ (c := 45) rfl (by decide) (by simp), e]
    exact e'
  | .nest j n b r, ind, S, s, P, below, x, F, a, hp, g, hpl, hdf => by
    refine ⟨nofun, fun hm xs H => ?_⟩
    obtain ⟨q, h1, Fq, e, h5, gq, hup⟩ := nest_line E pick f hp g H a.cache j
    obtain ⟨S2, hS, a2⟩ := parseLine_fine a e
    have hps : P.space < ind := hp.elim (fun h => h.1) (fun h => h.1)
    have hfr := Fresh.open { s.p with stack := ⟨false, ind, q⟩ :: P :: below, last := ind } h1 q rfl rfl (show ind < ind + n + 1 by omega)
    have ihb := blocks L pick f b (ind + n + 1) a2 (Or.inl hfr) gq hpl.2.1 hdf.1
    obtain ⟨s3, w, e3, ⟨S3, hS3, a3⟩, hin3, hr3, ⟨F3, u3⟩, hbl, hlow⟩ : ∃ s3 w, runLines E pick f (b.lines (ind + n + 1)) { p := { s.p with stack := ⟨false, ind, q⟩ :: P :: below, last := ind }, h := h1 } = .ok s3 ∧
        Next X h0 S2 s3 ∧ In s3 (ind + n + 1) ⟨false, ind, q⟩ (P :: below) ∧ s3.p.root = s.p.root ∧ (∃ F', Upd h1 Fq s3.h (some q) w F') ∧ IsBlock E w b ∧ ((ind + n + 1 : Nat) : Int) ≤ s3.p.last := by
      rcases hpl.1.2.2 with hb | hb
      · obtain ⟨s3, x3, l3, e3, D⟩ := ihb.1 hb [] (Or.inr ⟨rfl, hfr, h5, by simp [Val.vt]⟩) (by simp)
        have H3 := D.holds hpl.1.2.1
        obtain ⟨ku, kvs, rfl⟩ := H3.obj
        exact ⟨s3, _, e3, D.next, D.inn (Or.inr hpl.1.2.1), D.root, D.upd, .map hb (by rw [H3.mem]; simpa using D.fits), D.low (Or.inl (by first | exact hpl.1.2.2.1 | exact hpl.1.2.1))⟩
      · obtain ⟨s3, x3, l3, e3, D⟩ := ihb.2 hb [] (Or.inl rfl)
        have H3 := D.holds hpl.1.2.1
        subst H3
        exact ⟨s3, _, e3, D.next, D.inn (Or.inr hpl.1.2.1), D.root, D.upd, .list hb (by simpa using D.fits), D.low (Or.inl (by first | exact hpl.1.2.2.1 | exact hpl.1.2.1))⟩
    obtain ⟨F4, u4⟩ := hup _ _ _ u3
    have hin4 : In s3 ind P below := In.back hps (by omega) (Int.le_refl _) hin3
    obtain ⟨s', x', ys, e', D⟩ := (blocks L pick f r ind a3 (Or.inr hin4) u4.good hpl.2.2 hdf.2).2 hm _ (Or.inl rfl)
    have hi := D.inn (Or.inl hin4)
    obtain ⟨F', u'⟩ := D.upd
    have hH : x' = .arr (xs ++ w :: ys) := by
      rcases D.like with h | ⟨h, -⟩
      · simpa using h
      · simp at h
    refine ⟨s', x', w :: ys, ?_, (D.next.after hS3).after hS, Or.inr hi, fun _ => hi, D.root.trans hr3, ⟨F', UpdX.trans (X := []) u4 u'⟩, Or.inl hH, fun _ => hH, D.fits.nest hbl, fun _ => D.low (Or.inr (by omega)), fun hdp => ?_⟩
    · rw [YB.lines]
      have hl := hpl.1.1
      rw [runLines, if_neg (by simp; omega), indent (c := 45) rfl (by decide), e]
      show runLines E pick f (b.lines (ind + n + 1) ++ r.lines ind) _ = _
      rw [runLines_append, e3]
      exact e'
    · unfold YB.deep at hdp
      by_cases hr : r.full = true
      · rw [if_pos hr] at hdp; exact D.deep hdp
      · rw [runLines_idle E pick f r ind _ hpl.2.2 (by simpa using hr)] at e'
        cases e'
        omega
  | .entry k v cmt m r, ind, S, s, P, below, x, F, a, hp, g, hpl, hdf => by
    refine ⟨nofun, fun hm xs H => ?_⟩
    obtain ⟨q, c, h1, xq, Fq, e, gq, Hq, hup⟩ := entry_line L pick f hp g H a.cache hpl.1.1 hpl.1.2.1
    obtain ⟨S2, hS, a2⟩ := parseLine_fine a e
    have hps : P.space < ind := hp.elim (fun h => h.1) (fun h => h.1)
    have hin := In.item { s.p with first := true, stack := ⟨true, ind, c⟩ :: ⟨true, ind, q⟩ :: P :: below, last := ind } h1 q c rfl rfl rfl
    obtain ⟨s3, x3, l3, e3, D3⟩ := (blocks L pick f m (ind + 2) a2 (Or.inr hin) gq hpl.2.1 hdf.2.1).1 hpl.1.2.2 _ (Or.inl Hq) (by
      intro kv hkv k' hk'
      simp at hkv; subst hkv; exact hdf.1 k' hk')
    obtain ⟨S3, hS3, a3⟩ := D3.next
    obtain ⟨F3, u3⟩ := D3.upd
    have H3 : Holds E x3 ((k, scalar E v) :: l3) := by
      rcases D3.like with h | ⟨h, -⟩
      · simpa using h
      · simp at h
    obtain ⟨ku, kvs, rfl⟩ := H3.obj
    obtain ⟨F4, u4⟩ := hup _ _ _ u3
    have hin4 : In s3 ind P below := In.back hps (by omega) (Int.le_refl _) (D3.inn (Or.inl hin))
    obtain ⟨s', x', ys, e', D⟩ := (blocks L pick f r ind a3 (Or.inr hin4) u4.good hpl.2.2 hdf.2.2).2 hm _ (Or.inl rfl)
    have hi := D.inn (Or.inl hin4)
    obtain ⟨F', u'⟩ := D.upd
    have hH : x' = .arr (xs ++ .obj ku kvs :: ys) := by
      rcases D.like with h | ⟨h, -⟩
      · simpa using h
      · simp at h
    have hlow3 : (ind : Int) ≤ s3.p.last := by
      by_cases hm3 : m.full = true
      · have := D3.low (Or.inl hm3); omega
      · rw [runLines_idle E pick f m _ _ hpl.2.1 (by simpa using hm3)] at e3
        cases e3
        exact Int.le_refl _
    refine ⟨s', x', .obj ku kvs :: ys, ?_, (D.next.after hS3).after hS, Or.inr hi, fun _ => hi, D.root.trans D3.root, ⟨F', UpdX.trans (X := []) u4 u'⟩, Or.inl hH, fun _ => hH,
      D.fits.entry (by rw [H3.mem]; exact D3.fits.leaf), fun _ => D.low (Or.inr hlow3), fun hdp => ?_⟩
    · rw [YB.lines, runLines_entry _ _ _ (c := 45) rfl (by decide) (by simp), e]
      show runLines E pick f (m.lines (ind + 2) ++ r.lines ind) _ = _
      rw [runLines_append, e3]
      exact e'
    · unfold YB.deep at hdp
      by_cases hr : r.full = true
      · rw [if_pos hr] at hdp; exact D.deep hdp
      · rw [runLines_idle E pick f r ind _ hpl.2.2 (by simpa using hr)] at e'
        cases e'
        rw [if_neg hr] at hdp; have := D3.low (Or.inl hdp); omega
  | .entrySub k cmt n b m r, ind, S, s, P, below, x, F, a, hp, g, hpl, hdf => by
    refine ⟨nofun, fun hm xs H => ?_⟩
    obtain ⟨⟨hpk, hcm, hbf, hbm, hmm, hor⟩, hplb, hplm, hplr⟩ := hpl
    obtain ⟨q, c, h1, w, Fc, hq, Fq, e, h5, gc, hw, hupc, hup⟩ := entrySub_line L pick f hp g H a.cache hpk hcm
    obtain ⟨S2, hS, a2⟩ := parseLine_fine a e
    have hps : P.space < ind := hp.elim (fun h => h.1) (fun h => h.1)
    have hfr := Fresh.item { s.p with first := true, stack := ⟨true, ind, c⟩ :: ⟨true, ind, q⟩ :: P :: below, last := ind } h1 q c rfl rfl rfl (show ind + 2 < ind + 2 + n + 1 by omega)
    obtain ⟨s3, x3, l3, e3, D3⟩ := (blocks L pick f b (ind + 2 + n + 1) a2 (Or.inl hfr) gc hplb hdf.2.1).1 hbm [] (Or.inr ⟨rfl, hfr, h5, hw⟩) (by simp)
    obtain ⟨S3, hS3, a3⟩ := D3.next
    obtain ⟨F3, u3⟩ := D3.upd
    have H3 := D3.holds hbf
    obtain ⟨kub, kvsb, rfl⟩ := H3.obj
    have hblk : IsBlock E (.obj kub kvsb) b := .map hbm (by rw [H3.mem]; simpa using D3.fits)
    obtain ⟨xq, Fq4, u4, H4⟩ := hupc _ _ _ (by simp) u3
    obtain ⟨s5, ku, kvs, l5, e5, ⟨S5, hS5, a5⟩, hin5, hr5, ⟨F5, u5⟩, H5, fits5, hlow5⟩ : ∃ s5 ku kvs l5, runLines E pick f (m.lines (ind + 2)) s3 = .ok s5 ∧ Next X h0 S3 s5 ∧ In s5 ind P below ∧ s5.p.root = s3.p.root ∧
        (∃ F', Upd hq Fq s5.h (some q) (.obj ku kvs) F') ∧ Holds E (.obj ku kvs) ((k, .obj kub kvsb) :: l5) ∧ IsMap E l5 m ∧ (ind : Int) < s5.p.last := by
      by_cases hmf : m.full = true
      · have hbfl : b.flat = true := by
          rcases hor with h | h
          · exact h
          · rw [hmf] at h; cases h
        obtain ⟨r3, hst3, hl3⟩ := D3.flat hbf hbfl
        have hin := In.flatBack (s := s3) (P := P) (below := below) (show ind + 2 < ind + 2 + n + 1 by omega) hst3 hl3
        obtain ⟨s5, x5, l5, e5, D5⟩ := (blocks L pick f m (ind + 2) a3 (Or.inr hin) u4.good hplm hdf.2.2.1).1 hmm _ (Or.inl H4) (by
          intro kv hkv k' hk'
          simp at hkv; subst hkv; exact hdf.1 k' hk')
        have H5 := D5.holds hmf
        obtain ⟨ku, kvs, rfl⟩ := H5.obj
        obtain ⟨F5, u5⟩ := D5.upd
        exact ⟨s5, ku, kvs, l5, e5, D5.next, In.back hps (by omega) (Int.le_refl _) (D5.inn (Or.inl hin)), D5.root, ⟨F5, UpdX.trans (X := []) u4 u5⟩, by simpa using H5, D5.fits, by have := D5.low (Or.inl hmf); omega⟩
      · obtain ⟨ku, kvs, rfl⟩ := H4.obj
        exact ⟨s3, ku, kvs, [], runLines_idle E pick f m _ _ hplm (by simpa using hmf), ⟨S3, fun _ => id, a3⟩,
          In.back2 hps (by omega) (Int.le_refl _) (Int.le_refl _) (D3.inn (Or.inr hbf)), rfl, ⟨Fq4, u4⟩, H4, isMap_idle E m hmm (by simpa using hmf), by have := D3.low (Or.inl hbf); omega⟩
    obtain ⟨F6, u6⟩ := hup _ _ _ u5
    obtain ⟨s', x', ys, e', D⟩ := (blocks L pick f r ind a5 (Or.inr hin5) u6.good hplr hdf.2.2.2).2 hm _ (Or.inl rfl)
    have hi := D.inn (Or.inl hin5)
    obtain ⟨F', u'⟩ := D.upd
    have hH : x' = .arr (xs ++ .obj ku kvs :: ys) := by
      rcases D.like with h | ⟨h, -⟩
      · simpa using h
      · simp at h
    refine ⟨s', x', .obj ku kvs :: ys, ?_, ((D.next.after hS5).after hS3).after hS, Or.inr hi, fun _ => hi, (D.root.trans hr5).trans D3.root, ⟨F', UpdX.trans (X := []) u6 u'⟩, Or.inl hH, fun _ => hH,
      D.fits.entrySub (by rw [H5.mem]; exact fits5.sub hblk), fun _ => D.low (Or.inr (by omega)), fun hdp => ?_⟩
    · rw [YB.lines, runLines_entry _ _ _ (c := 45) rfl (by decide) (by simp), e]
      show runLines E pick f (b.lines (ind + 2 + n + 1) ++ (m.lines (ind + 2) ++ r.lines ind)) _ = _
      rw [runLines_append, e3]
      show runLines E pick f (m.lines (ind + 2) ++ r.lines ind) s3 = _
      rw [runLines_append, e5]
      exact e'
    · unfold YB.deep at hdp
      by_cases hr : r.full = true
      · rw [if_pos hr] at hdp; exact D.deep hdp
      · rw [runLines_idle E pick f r ind _ hplr (by simpa using hr)] at e'
        cases e'
        omega

end

end Dxs.Yaml
