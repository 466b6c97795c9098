import Verif.Yaml.Loop
import Verif.Props.Api

/-!
# Mappings: what each line does to the tree
-/

namespace Dxs.Yaml

open Dxs.Heap

/-! ## The specification -/

/-- Not empty, no space, newline or carriage return at either end. -/
def Neat (b : Bytes) : Prop := (∃ c, b.head? = some c ∧ c ≠ 32 ∧ c ≠ 10 ∧ c ≠ 13) ∧ (∃ c, b.getLast? = some c ∧ c ≠ 32 ∧ c ≠ 10 ∧ c ≠ 13)

/-- A plain line `k: v`: one line, no comment, no indentation, no list item, no merge, no alias, no flow collection. -/
structure PlainLine (k v : Bytes) : Prop where
  key : Neat k
  val : Neat v
  colon : 58 ∉ k
  nl : 10 ∉ k ++ v
  comment : ¬[32, 35] <:+: k ++ [58, 32] ++ v
  khead : k.head? ≠ some 35 ∧ k.head? ≠ some 45
  merge : k ≠ [60, 60]
  vhead : v.head? ≠ some 38 ∧ v.head? ≠ some 42 ∧ v.head? ≠ some 123 ∧ v.head? ≠ some 91

/-- The value a plain scalar stands for. -/
def scalar (E : Env) (v : Bytes) : Val :=
  if v = [116, 114, 117, 101] then .tru
  else if v = [102, 97, 108, 115, 101] then .fls
  else
    match E.parseFloat v with
    | some x => .double x
    | none => .str v

/-! ## Lines -/

theorem neat_ne {b : Bytes} (h : Neat b) : b ≠ [] := by rintro rfl; obtain ⟨⟨c, h, -⟩, -⟩ := h; cases h

theorem trim_neat {b : Bytes} (h : Neat b) : trim b = b := by
  obtain ⟨⟨c, hc, h1, h2, h3⟩, ⟨d, hd, g1, g2, g3⟩⟩ := h
  have e : ∀ (l : Bytes) (c : UInt8), l.head? = some c → isSp c = false → l.dropWhile isSp = l := by
    intro l c hl hs
    cases l with
    | nil => rfl
    | cons a r => cases hl; simp [List.dropWhile_cons, hs]
  unfold trim
  rw [e b c hc (by simp [isSp, h1, h2, h3]), e b.reverse d (by rw [List.head?_reverse]; exact hd) (by simp [isSp, g1, g2, g3]), List.reverse_reverse]

theorem neat_append {a b m : Bytes} (ha : Neat a) (hb : Neat b) : Neat (a ++ m ++ b) := by
  obtain ⟨⟨c, hc, h1⟩, -⟩ := ha
  obtain ⟨-, ⟨d, hd, g1⟩⟩ := hb
  refine ⟨⟨c, ?_, h1⟩, ⟨d, ?_, g1⟩⟩
  · cases a with
    | nil => cases hc
    | cons x r => simpa using hc
  · rw [List.getLast?_append, hd]; rfl

theorem findIdx_key {k r : Bytes} (h : 58 ∉ k) : (k ++ 58 :: r).findIdx? (· == 58) = some k.length := by
  induction k with
  | nil => simp [List.findIdx?_cons]
  | cons c k ih =>
    simp only [List.mem_cons, not_or] at h
    have hc : (c == 58) = false := by simpa using Ne.symm h.1
    simp [List.findIdx?_cons, hc, ih h.2]

theorem splitKv_plain {k v : Bytes} (p : PlainLine k v) : splitKv (k ++ [58, 32] ++ v) = (k, v, true) := by
  have ht : trim (k ++ [58, 32] ++ v) = k ++ [58, 32] ++ v := trim_neat (neat_append p.key p.val)
  have hi : (k ++ [58, 32] ++ v).findIdx? (· == 58) = some k.length := by
    rw [List.append_assoc]; exact findIdx_key p.colon
  unfold splitKv
  simp only [ht, hi]
  have hv := neat_ne p.val
  have hvl : 0 < v.length := List.length_pos_iff.mpr hv
  rw [if_pos (by simp), if_pos (by simp)]
  have e1 : (k ++ [58, 32] ++ v).take k.length = k := by rw [List.append_assoc]; simp
  have e2 : (k ++ [58, 32] ++ v).drop (k.length + 2) = v := by
    rw [show k.length + 2 = (k ++ [58, 32]).length by simp]; simp
  rw [e1, e2, trim_neat p.key, trim_neat p.val]

theorem hashIdx_none {l : Bytes} (h : ¬[32, 35] <:+: l) : hashIdx l = none := by
  induction l with
  | nil => rfl
  | cons c r ih =>
    have h' : ¬[32, 35] <:+: r := fun x => h (x.trans (List.suffix_cons c r).isInfix)
    unfold hashIdx
    split
    · rename_i r' e
      rw [List.cons.injEq] at e
      exact absurd (by rw [e.1, e.2]; exact (List.prefix_append [32, 35] r').isInfix) h
    · rename_i e
      cases e
      simp [ih h']
    · rfl

theorem cutComment_plain {k v : Bytes} (p : PlainLine k v) : cutComment (k ++ [58, 32] ++ v) = k ++ [58, 32] ++ v := by
  unfold cutComment
  rw [hashIdx_none p.comment]

/-- The value of a plain scalar. -/
theorem strVal1_plain (E : Env) (f : Nat) (s : St) {t : Ptr} {v : Bytes} (hn : v ≠ []) (hv : v.head? ≠ some 38 ∧ v.head? ≠ some 42 ∧ v.head? ≠ some 123 ∧ v.head? ≠ some 91)
    {w0 : Bytes} {F : List Ptr} (g : Good s.h (some t) (.str w0) F) (h5 : 5 ≤ t) :
    ∃ h', strVal1 E f s t v = .ok { s with h := h' } ∧ Upd s.h F h' (some t) (scalar E v) [t] := by
  unfold strVal1 strVal scalar
  have e : trueBytes = [116, 114, 117, 101] := rfl
  rw [e]
  split
  · exact ⟨_, rfl, setBool_upd g h5 true⟩
  split
  · exact ⟨_, rfl, setBool_upd g h5 false⟩
  rcases hp : E.parseFloat v with _ | x
  rotate_left
  · exact ⟨_, rfl, by have := setDouble_upd g h5 x; simpa [Val.vt] using this⟩
  · rcases hc : v.head? with _ | c
    · exact absurd (List.head?_eq_none_iff.mp hc) hn
    · rw [hc] at hv
      simp only [ne_eq, Option.some.injEq] at hv
      dsimp only
      rw [if_neg (fun h => hv.2.2.1 h.1), if_neg (fun h => hv.2.2.2 h.1), if_neg hv.1, if_neg hv.2.1]
      exact ⟨_, rfl, setString_upd g h5 v⟩

theorem scalar_ne_nil (E : Env) (v : Bytes) : scalar E v ≠ .nil := by
  unfold scalar
  split
  · simp
  split
  · simp
  split <;> simp

theorem noNil_put {m : Bytes → Bytes → Bool} {l : List (Bytes × Val)} (h : ∀ kv ∈ l, kv.2 ≠ .nil) (k : Bytes) {w : Val} (hw : w ≠ .nil) : ∀ kv ∈ Assoc.put m l k w, kv.2 ≠ .nil := by
  induction l with
  | nil => intro kv hkv; simp [Assoc.put] at hkv; subst hkv; exact hw
  | cons x r ih =>
    obtain ⟨k', v'⟩ := x
    intro kv hkv
    unfold Assoc.put at hkv
    split at hkv
    · rcases List.mem_cons.mp hkv with rfl | hkv
      · exact hw
      · exact h kv (List.mem_cons_of_mem _ hkv)
    · rcases List.mem_cons.mp hkv with rfl | hkv
      · exact h _ List.mem_cons_self
      · exact ih (fun kv hk => h kv (List.mem_cons_of_mem _ hk)) kv hkv

theorem noNil_kvs {E : Env} {ku : Bool} {kvs : List (Bytes × Val)} (h : ∀ kv ∈ members E (.obj ku kvs), kv.2 ≠ .nil) : ∀ kv ∈ kvs, kv.2 ≠ .nil := by
  intro kv hkv e
  have : kv.2 ∈ (members E (.obj ku kvs)).map Prod.snd := by rw [members_snd]; exact List.mem_map_of_mem hkv
  obtain ⟨kv', h1, h2⟩ := List.mem_map.mp this
  exact h kv' h1 (h2.trans e)

/-- The value is an object with the members `m`, names distinct, nothing nil. -/
structure Holds (E : Env) (x : Val) (m : List (Bytes × Val)) : Prop where
  obj : ∃ ku kvs, x = .obj ku kvs
  mem : members E x = m
  unique : Assoc.Distinct E.keyMatch m
  noNil : ∀ kv ∈ m, kv.2 ≠ .nil

theorem Holds.put {E : Env} (L : KeyLaws E) {ku : Bool} {kvs : List (Bytes × Val)} {m : List (Bytes × Val)} (H : Holds E (.obj ku kvs) m) (k : Bytes) {w : Val} (hw : w ≠ .nil) :
    Holds E (objPut E ku kvs k w) (Assoc.put E.keyMatch m k w) where
  obj := by
    unfold objPut setKeyValueObj
    split <;> exact ⟨_, _, rfl⟩
  mem := by rw [members_objPut L ku kvs (by rw [H.mem]; exact H.unique), H.mem]
  unique := Assoc.put_distinct H.unique k _
  noNil := noNil_put H.noNil k hw

/-- `SetKeyCached` followed by an action on the node it returned. -/
theorem putKey_then (E : Env) {s : St} {p : Ptr} {ku : Bool} {kvs : List (Bytes × Val)} {F : List Ptr} (g : Good s.h (some p) (.obj ku kvs) F)
    (hc : ∀ d, s.p.cache = some d → d < s.h.nextC) (name : Bytes) (t : VT) (hnil : objOld E ku kvs name ≠ some .nil) :
    ∃ q h1 w, putKey E s p name t = .ok (q, { s with h := h1 }) ∧ 5 ≤ q ∧ Slot t (objOld E ku kvs name) w ∧
      ∃ Fq, Good h1 (some q) w Fq ∧ ∀ h2 w' Fq', Upd h1 Fq h2 (some q) w' Fq' → ∃ F', Upd s.h F h2 (some p) (objPut E ku kvs name w') F' := by
  obtain ⟨q, h1, w, F1, he, u, hk, h5, hs⟩ := setKeyCached_obj E g name t s.p.cache hc hnil
  obtain ⟨b, Fq, hb, gq, -, hupd⟩ := u.good.kid (kids_objPut E ku kvs name w)
  rw [hk] at hb
  cases hb
  refine ⟨q, h1, w, ?_, h5, hs, Fq, gq, ?_⟩
  · unfold putKey; rw [he]; rfl
  intro h2 w' Fq' u2
  obtain ⟨F', u3⟩ := hupd [] h2 w' Fq' u2 (by simp)
  rw [setKid_objPut] at u3
  exact ⟨F', UpdX.trans u u3⟩

/-! ## The stack between lines -/

/-- The next line at indentation `ind` is for the object `p`: above `p` are only the last entry of `p` and what is deeper. -/
def Pos (s : St) (ind : Nat) (spp : Int) (p : Ptr) (below : List YNode) : Prop :=
  spp < ind ∧ ((s.p.stack = ⟨false, spp, p⟩ :: below ∧ s.p.last = spp) ∨
    ∃ (up : List YNode) (q : Ptr), s.p.stack = up ++ ⟨false, ind, q⟩ :: ⟨false, spp, p⟩ :: below ∧ (∀ n ∈ up, (ind : Int) < n.space ∧ n.isMap = false) ∧
      ∀ n, (up ++ [(⟨false, ind, q⟩ : YNode)]).head? = some n → s.p.last = n.space)

theorem closeTo_app {sp spp : Int} (h : spp < sp) (p : Ptr) (below : List YNode) : ∀ (r : List YNode), (∀ n ∈ r, sp ≤ n.space) →
    closeTo sp (r ++ ⟨false, spp, p⟩ :: below) = ⟨false, spp, p⟩ :: below
  | [], _ => by
    cases below with
    | nil => rfl
    | cons m r => simp [closeTo, h]
  | n :: r, hr => by
    have hn := hr n List.mem_cons_self
    have ih := closeTo_app h p below r (fun n hn => hr n (List.mem_cons_of_mem _ hn))
    cases r with
    | nil => simp only [List.cons_append, List.nil_append] at ih ⊢; unfold closeTo; rw [if_neg (by omega)]; exact ih
    | cons m r => simp only [List.cons_append] at ih ⊢; unfold closeTo; rw [if_neg (by omega)]; exact ih

/-- What `parseLine` closes. -/
theorem pos_pop {s : St} {ind : Nat} {spp : Int} {p : Ptr} {below : List YNode} (h : Pos s ind spp p below) :
    (s.p.stack.head?.map (·.isMap)) = some false ∧
    (if s.p.last > (ind : Int) then closeTo ind (s.p.stack.drop 2) else if s.p.last = (ind : Int) then s.p.stack.drop 1 else s.p.stack) = ⟨false, spp, p⟩ :: below := by
  obtain ⟨hlt, ⟨hs, hl⟩ | ⟨up, q, hs, hu, hl⟩⟩ := h
  · rw [hs, hl, if_neg (by omega), if_neg (by omega)]
    exact ⟨rfl, rfl⟩
  · rw [hs]
    cases up with
    | nil =>
      have := hl _ rfl
      dsimp only at this
      rw [this, if_neg (by omega), if_pos rfl]
      exact ⟨rfl, rfl⟩
    | cons e up =>
      have hl' := hl e rfl
      obtain ⟨h1, h2⟩ := hu e List.mem_cons_self
      refine ⟨by simp [h2], ?_⟩
      rw [hl', if_pos h1]
      cases up with
      | nil => exact closeTo_app hlt p below [] (by simp)
      | cons e' up =>
        have := closeTo_app hlt p below (up ++ [⟨false, ind, q⟩]) (by
          intro n hn
          rcases List.mem_append.mp hn with hn | hn
          · have := (hu n (by simp [hn])).1; omega
          · simp at hn; subst hn; exact Int.le_refl _)
        simpa using this

/-- A line after its pop. -/
theorem parseLine_at {E : Env} {pick : Heap → Option Nat} {f : Nat} {s : St} {ind : Nat} {spp : Int} {p : Ptr} {below : List YNode} (h : Pos s ind spp p below)
    {text body : Bytes} {c : UInt8} (hc : text.head? = some c) (h35 : c ≠ 35) (h45 : c ≠ 45) (hcut : cutComment text = body) :
    parseLine E pick f (List.replicate ind 32 ++ text) ind s =
      (parseObject E pick f body ind { s with p := { s.p with stack := ⟨false, spp, p⟩ :: below } }).bind (fun s => .ok { s with p := { s.p with last := ind } }) := by
  obtain ⟨h1, h2⟩ := pos_pop h
  unfold parseLine
  have hd : (List.replicate ind 32 ++ text).drop ind = text := by
    rw [List.drop_append_of_le_length (by simp)]; simp
  rw [hd]
  simp only [hc, if_neg h35, if_neg h45, hcut, h1, Option.some.injEq, Bool.false_eq_true, and_false, if_false, h2]
  rfl

/-- The state after a line: what is on top is the entry `q`. -/
theorem Pos.after {s : St} {ind : Nat} {spp : Int} {p : Ptr} {below : List YNode} (h : Pos s ind spp p below) (h' : Heap) (q : Ptr) (b : Bool) :
    Pos { p := { s.p with first := b, stack := ⟨false, ind, q⟩ :: ⟨false, spp, p⟩ :: below, last := ind }, h := h' } ind spp p below :=
  ⟨h.1, Or.inr ⟨[], q, rfl, by simp, fun n hn => by cases hn; rfl⟩⟩

/-- The position inside the new entry. -/
theorem Pos.inside {s : St} {ind : Nat} {spp : Int} {p : Ptr} {below : List YNode} (h' : Heap) (q : Ptr) (b : Bool) {ind' : Nat} (hi : ind < ind') :
    Pos { p := { s.p with first := b, stack := ⟨false, ind, q⟩ :: ⟨false, spp, p⟩ :: below, last := ind }, h := h' } ind' ind q (⟨false, spp, p⟩ :: below) :=
  ⟨by omega, Or.inl ⟨rfl, rfl⟩⟩

/-- Back from the entry. -/
theorem Pos.back {s : St} {ind ind' : Nat} {spp : Int} {p q : Ptr} {below : List YNode} (hs : spp < ind) (h : Pos s ind' ind q (⟨false, spp, p⟩ :: below)) : Pos s ind spp p below := by
  obtain ⟨hlt, ⟨h1, h2⟩ | ⟨up, r, h1, h2, h3⟩⟩ := h
  · exact ⟨hs, Or.inr ⟨[], q, h1, by simp, fun n hn => by cases hn; exact h2⟩⟩
  · refine ⟨hs, Or.inr ⟨up ++ [⟨false, ind', r⟩], q, by rw [h1]; simp, ?_, ?_⟩⟩
    · intro n hn
      rcases List.mem_append.mp hn with hn | hn
      · have := h2 n hn; exact ⟨by omega, this.2⟩
      · simp at hn; subst hn; exact ⟨by simpa using hlt, rfl⟩
    · intro n hn
      refine h3 n ?_
      cases up with
      | nil => simpa using hn
      | cons e up => simpa using hn

theorem mergeRef_no {f : Nat} {s : St} {cur : Ptr} {line k v : Bytes} (hk : k ≠ [60, 60]) : mergeRef f s cur line k v = .ok (false, s) := by
  unfold mergeRef; rw [if_neg hk]

/-- An entry with a scalar, at the object `p`. -/
theorem obj_leaf (E : Env) (pick : Heap → Option Nat) (f : Nat) {s : St} {b : Bool} {spp : Int} {p : Ptr} {below : List YNode} (hs : s.p.stack = ⟨b, spp, p⟩ :: below)
    {ku : Bool} {kvs : List (Bytes × Val)} {F : List Ptr} (g : Good s.h (some p) (.obj ku kvs) F) (hc : ∀ d, s.p.cache = some d → d < s.h.nextC) {k v : Bytes}
    (hnil : objOld E ku kvs k ≠ some .nil) (pl : PlainLine k v) (ind : Int) :
    ∃ q h2 F', parseObject E pick f (k ++ [58, 32] ++ v) ind s = .ok { p := { s.p with first := false, stack := ⟨false, ind, q⟩ :: ⟨b, spp, p⟩ :: below }, h := h2 } ∧
      Upd s.h F h2 (some p) (objPut E ku kvs k (scalar E v)) F' := by
  obtain ⟨⟨first, useCache, last, root, cache, stack, uses⟩, h⟩ := s
  dsimp only at hs g hc
  subst hs
  have hkn := neat_ne pl.key
  have hvn := neat_ne pl.val
  have hdt : (h.mem p).dt = .object := rep_dt g.rep
  obtain ⟨q, h1, w, e1, h5, hsl, Fq, gq, hupd⟩ := putKey_then E (s := ⟨⟨false, useCache, last, root, cache, ⟨b, spp, p⟩ :: below, uses⟩, h⟩) g hc k .string hnil
  have hwv := hsl.vt
  obtain ⟨s0, rfl⟩ : ∃ s0, w = .str s0 := by cases w <;> simp [Val.vt] at hwv <;> exact ⟨_, rfl⟩
  obtain ⟨h2, e2, u2⟩ := strVal1_plain E f ⟨⟨false, useCache, last, root, cache, ⟨b, spp, p⟩ :: below, uses⟩, h1⟩ hvn pl.vhead gq h5
  obtain ⟨F', u⟩ := hupd h2 _ _ u2
  refine ⟨q, h2, F', ?_, u⟩
  have h38 := pl.vhead.1
  have h42 := pl.vhead.2.1
  have hmem : ∀ s', s' = (⟨⟨false, useCache, last, root, cache, ⟨b, spp, p⟩ :: below, uses⟩, h⟩ : St) → objMember E f k v p s' = .ok (q, ⟨⟨false, useCache, last, root, cache, ⟨b, spp, p⟩ :: below, uses⟩, h2⟩) := by
    rintro s' rfl
    unfold objMember
    rcases hv : v.head? with _ | c
    · exact absurd (List.head?_eq_none_iff.mp hv) hvn
    · rw [hv] at h38 h42
      simp only [ne_eq, Option.some.injEq] at h38 h42
      simp only [if_neg h38, if_neg h42, bind]
      rw [e1]
      simp only [Res.bind]
      rw [e2]
  unfold parseObject
  simp only [List.cons_ne_nil, if_false, List.head?_cons, splitKv_plain pl, false_and, Bool.false_eq_true, and_false]
  generalize (if ¬False ∧ first = true ∧ b = true then last + 2 else last) = L
  split
  · unfold objSame
    rw [if_neg (by simp [hkn]), mergeRef_no pl.merge]
    simp only [bind, Res.bind, Bool.false_eq_true, if_false, ne_eq, hvn, not_false_eq_true, if_true]
    rw [e1]
    simp only [Res.bind]
    rw [e2]
    simp only [Res.bind, push]
  split
  · unfold objChild
    rw [if_neg hkn]
    dsimp only
    rw [if_pos hdt, mergeRef_no pl.merge]
    simp only [bind, Res.bind, Bool.false_eq_true, if_false]
    rw [hmem _ rfl]
    simp only [Res.bind, push]
  · unfold objBack
    rw [if_neg (by simp [hkn, hdt]), if_neg hvn, mergeRef_no pl.merge]
    simp only [bind, Res.bind, Bool.false_eq_true, if_false]
    rw [e1]
    simp only [Res.bind]
    rw [e2]
    simp only [Res.bind, push]

/-- A line `k:`. -/
structure PlainKey (k : Bytes) : Prop where
  key : Neat k
  colon : 58 ∉ k
  nl : 10 ∉ k
  comment : ¬[32, 35] <:+: k
  khead : k.head? ≠ some 35 ∧ k.head? ≠ some 45
  merge : k ≠ [60, 60]

theorem splitKv_key {k : Bytes} (p : PlainKey k) : splitKv (k ++ [58]) = (k, [], true) := by
  have hn : Neat (k ++ [58]) := by
    obtain ⟨⟨c, hc, h1⟩, -⟩ := p.key
    refine ⟨⟨c, ?_, h1⟩, ⟨58, by simp, by decide⟩⟩
    cases k with
    | nil => cases hc
    | cons x r => simpa using hc
  have hi : (k ++ [58]).findIdx? (· == 58) = some k.length := findIdx_key p.colon
  unfold splitKv
  simp only [trim_neat hn, hi]
  have : trim [] = [] := rfl
  simp [trim_neat p.key, this]

theorem hash_key {k : Bytes} (h : ¬[32, 35] <:+: k) : ¬[32, 35] <:+: k ++ [58] := by
  rintro ⟨a, b, e⟩
  rcases List.eq_nil_or_concat b with rfl | ⟨b', x, rfl⟩
  · have := congrArg List.getLast? e
    simp at this
  · apply h
    refine ⟨a, b', ?_⟩
    have : (a ++ [32, 35] ++ b') ++ [x] = k ++ [58] := by simpa using e
    exact (List.append_inj' this rfl).1

theorem cutComment_key {k : Bytes} (p : PlainKey k) : cutComment (k ++ [58]) = k ++ [58] := by
  unfold cutComment
  rw [hashIdx_none (hash_key p.comment)]

/-- An entry that opens a mapping, at the object `p`, under a new name. -/
theorem obj_sub (E : Env) (pick : Heap → Option Nat) (f : Nat) {s : St} {b : Bool} {spp : Int} {p : Ptr} {below : List YNode} (hs : s.p.stack = ⟨b, spp, p⟩ :: below)
    {ku : Bool} {kvs : List (Bytes × Val)} {F : List Ptr} (g : Good s.h (some p) (.obj ku kvs) F) (hc : ∀ d, s.p.cache = some d → d < s.h.nextC) {k : Bytes}
    (hnew : objOld E ku kvs k = none) (pl : PlainKey k) (ind : Int) :
    ∃ q h1 Fq, parseObject E pick f (k ++ [58]) ind s = .ok { p := { s.p with first := false, stack := ⟨false, ind, q⟩ :: ⟨b, spp, p⟩ :: below }, h := h1 } ∧
      Good h1 (some q) (.obj false []) Fq ∧ ∀ h2 w' Fq', Upd h1 Fq h2 (some q) w' Fq' → ∃ F', Upd s.h F h2 (some p) (objPut E ku kvs k w') F' := by
  obtain ⟨⟨first, useCache, last, root, cache, stack, uses⟩, h⟩ := s
  dsimp only at hs g hc
  subst hs
  have hkn := neat_ne pl.key
  have hdt : (h.mem p).dt = .object := rep_dt g.rep
  obtain ⟨q, h1, w, e1, h5, hsl, Fq, gq, hupd⟩ := putKey_then E (s := ⟨⟨false, useCache, last, root, cache, ⟨b, spp, p⟩ :: below, uses⟩, h⟩) g hc k .object (by rw [hnew]; simp)
  rw [hnew] at hsl
  have hw : w = .obj false [] := by
    obtain ⟨c, rfl⟩ := hsl
    rfl
  subst hw
  refine ⟨q, h1, Fq, ?_, gq, hupd⟩
  have hmem : ∀ s', s' = (⟨⟨false, useCache, last, root, cache, ⟨b, spp, p⟩ :: below, uses⟩, h⟩ : St) → objMember E f k [] p s' = .ok (q, ⟨⟨false, useCache, last, root, cache, ⟨b, spp, p⟩ :: below, uses⟩, h1⟩) := by
    rintro s' rfl
    exact e1
  unfold parseObject
  simp only [List.cons_ne_nil, if_false, List.head?_cons, splitKv_key pl, false_and, Bool.false_eq_true, and_false]
  generalize (if ¬False ∧ first = true ∧ b = true then last + 2 else last) = L
  split
  · unfold objSame
    rw [if_neg (by simp [hkn]), mergeRef_no pl.merge]
    simp only [bind, Res.bind, Bool.false_eq_true, if_false, ne_eq, not_true_eq_false]
    rw [e1]
    simp only [Res.bind, push]
  split
  · unfold objChild
    rw [if_neg hkn]
    dsimp only
    rw [if_pos hdt, mergeRef_no pl.merge]
    simp only [bind, Res.bind, Bool.false_eq_true, if_false]
    rw [hmem _ rfl]
    simp only [Res.bind, push]
  · unfold objBack
    rw [if_neg (by simp [hkn, hdt]), if_pos rfl]
    simp only [bind]
    rw [e1]
    simp only [Res.bind, push]

end Dxs.Yaml
