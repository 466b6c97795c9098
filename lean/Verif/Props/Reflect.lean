import Verif.Reflect.Proof
import Verif.Heap.Example
import Verif.EnvEx

/-!
# C53: SetValue

`Mirrors g v` (Reflect/Spec.lean) says what it means that the value `v` mirrors the Go data `g`; `Order g g'` says that `g'` is `g` with
maps handing out their entries in another order.
-/

namespace Dxs.Reflect
open Dxs.Heap

variable {E : Env}

theorem keyMatch_comm (L : KeyLaws E) (a b : Bytes) : E.keyMatch a b = E.keyMatch b a := by
  cases h : E.keyMatch a b <;> cases h' : E.keyMatch b a <;> first | rfl | skip
  · rw [L.match_symm h'] at h; cases h
  · rw [L.match_symm h] at h'; cases h'

/-- C53, for data without nil, without names that differ only in case, without named element types, …: `SetValue` makes any value mirror the data,
in whichever order maps hand out their entries. Nothing outside the value changes (`Upd`). What is excluded by `FairRoot` fails, see below. -/
theorem C53_setValue_partial (L : KeyLaws E) {g g' : Go} (hf : FairRoot E g) (o : Order g g') {h : Heap} {p : Ptr} {v : Val} {F : List Ptr}
    (gd : Good h (some p) v F) (h5 : 5 ≤ p) (ht : v.vt ≠ .dateTime) :
    ∃ h' w F', setValue E h p g' = .ok h' ∧ Upd h F h' (some p) w F' ∧ Mirrors g w := by
  have hl : (∀ x, g' = .time x → g = .time x) ∧ ∀ b, g' = .bytes b → g = .bytes b := by
    clear hf
    induction o with
    | refl => simp
    | trans _ _ i1 i2 => exact ⟨fun x hx => i1.1 x (i2.1 x hx), fun x hx => i1.2 x (i2.2 x hx)⟩
    | _ => simp
  obtain ⟨h', w, F', e, u, m⟩ := setValue_upd g' ⟨o.fair (keyMatch_comm L) hf.1, fun x hx => hf.2.1 x (hl.1 x hx), fun b hb => hf.2.2 b (hl.2 b hb)⟩ gd h5 ht
  exact ⟨h', w, F', e, u, o.mirrors w (Exact.mirrors g' m)⟩

/-- In an object whose names are different from each other every member is found under its name. -/
theorem findKey_mem (L : KeyLaws E) {ms : List (Bytes × Val)} (hd : Assoc.Distinct E.keyMatch ms) {k : Bytes} {w : Val} (hm : (k, w) ∈ ms) :
    ∃ i, findKey E ms k = some i ∧ (ms.map Prod.snd)[i]? = some w := by
  induction ms with
  | nil => cases hm
  | cons a r ih =>
    obtain ⟨k', w'⟩ := a
    simp only [Assoc.Distinct, List.map_cons, List.pairwise_cons] at hd
    rcases List.mem_cons.1 hm with e | hm
    · cases e
      exact ⟨0, by simp [findKey, List.findIdx?_cons, E.keyMatch_refl], rfl⟩
    · obtain ⟨i, h1, h2⟩ := ih hd.2 hm
      have := hd.1 k (List.mem_map_of_mem (f := Prod.fst) hm)
      refine ⟨i + 1, ?_, by simpa using h2⟩
      unfold findKey at h1 ⊢
      rw [List.findIdx?_cons, this, h1]
      rfl

theorem indexByName_get (L : KeyLaws E) {ku : Bool} {ms : List (Bytes × Val)} (op : ku = true ∨ ms = []) (hd : Assoc.Distinct E.keyMatch ms) {k : Bytes} {w : Val}
    (hm : (k, w) ∈ ms) : objOld E ku ms k = some w := by
  obtain ⟨i, h1, h2⟩ := findKey_mem L hd hm
  rcases op with rfl | rfl
  · simp only [objOld, indexByName, Bool.not_true, Bool.false_and, Bool.false_eq_true, if_false, unescKeys, if_true, h1, Option.bind_some, h2]
  · cases hm

/-- What mirrors a map answers the lookup of each of its names with a value that mirrors the entry. -/
theorem C53_lookup (L : KeyLaws E) {kvs : List (Bytes × Go)} (hd : Assoc.Distinct E.keyMatch kvs) {h : Heap} {p : Ptr} {v : Val} {F : List Ptr}
    (gd : Good h (some p) v F) (hv : Mirrors (.map kvs) v) {k : Bytes} {g : Go} (hk : (k, g) ∈ kvs) :
    ∃ w G, Good (valueByName E h p k).2 (valueByName E h p k).1 w G ∧ Mirrors g w := by
  obtain ⟨ku, ms, rfl, op, hp, hm⟩ := hv
  rw [mirrorsM_iff] at hm
  obtain ⟨w, h1, h2⟩ := hm (k, g) hk
  have hd' : Assoc.Distinct E.keyMatch ms := by
    unfold Assoc.Distinct at hd ⊢
    exact (hp.pairwise_iff (fun {a b} h => by rw [keyMatch_comm L]; exact h)).2 hd
  obtain ⟨-, G, gw, -⟩ := valueByName_obj E gd k
  rw [indexByName_get L op hd' h1] at gw
  exact ⟨w, G, gw, h2⟩

/-! A map with a map, a slice, a struct and every kind of number in it. -/

/-- `{"b":{"/":true,"t":time},"a":[1,"x",nil pointer]}` with a struct `{F float32; D time.Duration}` as the third entry. -/
def exGo : Go := .map [([98], .map [([47], .sc (.bool true)), ([116], .time 5)]), ([97], .slice [.sc (.int 1), .rslice [.nilPtr true, .sc (.str [120])], .bytes [1, 2]]),
  ([99], .struct [([70], .sc (.f32 7)), ([68], .named (.int 9))])]

/-- The same data in another order, also inside. -/
def exGo' : Go := .map [([97], .slice [.sc (.int 1), .rslice [.nilPtr true, .sc (.str [120])], .bytes [1, 2]]), ([99], .struct [([70], .sc (.f32 7)), ([68], .named (.int 9))]),
  ([98], .map [([116], .time 5), ([47], .sc (.bool true))])]

theorem exGo_fair : FairRoot envEx exGo := by
  refine ⟨?_, by simp [exGo], by simp [exGo]⟩
  simp only [exGo, Fair, FairM, FairL, FairR, FairF, Assoc.Distinct, and_true, true_and]
  refine ⟨by decide, by decide, ⟨Or.inl ⟨_, rfl⟩, Or.inr trivial⟩, by decide, Or.inr (by simp), Or.inl ⟨_, rfl, by simp⟩⟩

theorem exGo_order : Order exGo exGo' := by
  refine .trans (.inMap (l := []) (.map (.swap ([116], Go.time 5) ([47], Go.sc (.bool true)) []))) ?_
  refine .map ?_
  exact List.Perm.trans (.swap _ _ _) (.cons _ (.swap _ _ _))

example : ∃ h' w F', setValue envEx exHeap 7 exGo' = .ok h' ∧ Upd exHeap [7, 8] h' (some 7) w F' ∧ Mirrors exGo w :=
  C53_setValue_partial (envEx_keyLaws false) exGo_fair exGo_order exGood7 (by decide) (by decide)

/-! ## What goes wrong -/

/-- A `[]byte` handed to `SetValue` is ignored unless the value is already binary: the old contents stay. -/
theorem C53_bytes_ignored (h : Heap) (p : Ptr) (b : Bytes) (hd : (h.mem p).dt ≠ .binary ∧ (h.mem p).dt ≠ .exBinary) : setValue E h p (.bytes b) = .ok h := by
  unfold setValue
  split
  · rfl
  · simp only [setBinary]
    split
    · rename_i e; exact absurd e hd.1
    · rename_i e; exact absurd e hd.2
    · rfl

/-- A `time.Time` handed to `SetValue` becomes a plain number. -/
theorem C53_time_double {h : Heap} {p : Ptr} {v : Val} {F : List Ptr} (gd : Good h (some p) v F) (h5 : 5 ≤ p) (ht : v.vt ≠ .dateTime) (x : F64) :
    ∃ h' F', setValue E h p (.time x) = .ok h' ∧ Upd h F h' (some p) (.double x) F' := by
  have hs : ¬ shared p = true := by rw [shared_iff]; omega
  have u := setDouble_upd gd h5 x
  rw [if_neg ht] at u
  exact ⟨_, _, by unfold setValue; rw [if_neg hs], u⟩

/-- A nil interface, a nil pointer to a struct, an empty `map[string]bool`, a `time.Duration`: the old contents stay. -/
theorem C53_ignored (h : Heap) (p : Ptr) (g : Go) (hg : g = .nil ∨ g = .nilPtr false ∨ g = .rmap [] ∨ (∃ s, g = .named s) ∨ g = .other) : setValue E h p g = .ok h := by
  unfold setValue
  split
  · rfl
  · rcases hg with rfl | rfl | rfl | ⟨s, rfl⟩ | rfl <;> rfl

/-- A struct with an unsigned field makes `SetValue` panic. -/
theorem C53_unsigned_field {h : Heap} {p : Ptr} {v : Val} {F : List Ptr} (gd : Good h (some p) v F) (h5 : 5 ≤ p) (k : Bytes) (x : BitVec 64) (fs : List (Bytes × Go)) :
    setValue E h p (.struct ((k, .sc (.uint x)) :: fs)) = .panic := by
  have hs : ¬ shared p = true := by rw [shared_iff]; omega
  have u1 := reset_upd gd h5 .object
  obtain ⟨q, h1, w, he, -⟩ := key_then (E := E) u1.good (Or.inr rfl) (fresh_nil k) .int ((reset h p .object).mem p).owner (fun d hd => u1.good.inv.owner p d hd)
  unfold setValue
  rw [if_neg hs]
  simp only [setFields, rscKey, he, Res.bind_ok]
  rfl

/-- A struct with a nil pointer makes it panic, too. -/
theorem C53_nil_field (h : Heap) {p : Ptr} (h5 : 5 ≤ p) (k : Bytes) (b : Bool) (fs : List (Bytes × Go)) :
    setValue E h p (.struct ((k, .nilPtr b) :: fs)) = .panic := by
  have hs : ¬ shared p = true := by rw [shared_iff]; omega
  unfold setValue
  rw [if_neg hs]
  rfl

/-- A nil entry of a map is left out: its name is unknown afterwards. -/
theorem C53_nil_entry {h : Heap} {p : Ptr} {v : Val} {F : List Ptr} (gd : Good h (some p) v F) (h5 : 5 ≤ p) (k : Bytes) :
    ∃ h' F', setValue E h p (.map [(k, .nil)]) = .ok h' ∧ Upd h F h' (some p) (.obj false []) F' := by
  have hs : ¬ shared p = true := by rw [shared_iff]; omega
  exact ⟨_, _, by unfold setValue; rw [if_neg hs]; rfl, reset_upd gd h5 .object⟩

/-- A nil element of a slice is left out: the elements behind it move forward. So is an element of a declared type (`[]time.Duration`). -/
theorem C53_nil_element {h : Heap} {p : Ptr} {v : Val} {F : List Ptr} (gd : Good h (some p) v F) (h5 : 5 ≤ p) (s : Bytes) (x : Sc) (g : Go) (hg : g = .nil ∨ g = .named x) :
    ∃ h' F', setValue E h p (.slice [g, .sc (.str s)]) = .ok h' ∧ Upd h F h' (some p) (.arr [.str s]) F' := by
  have hs : ¬ shared p = true := by rw [shared_iff]; omega
  have u1 := reset_upd gd h5 .array
  have ho := fun d (hd : ((reset h p .array).mem p).owner = some d) => u1.good.inv.owner p d hd
  obtain ⟨w, u2⟩ := setIndexCached_arr (idx := ((1 : Nat) : Int)) u1.good .string _ ho
  obtain ⟨F2, u2, hk, hsl, h5q⟩ := u2
  obtain ⟨b, Fq, hb, gq, -, hupd⟩ := u2.good.kid (kids_arrPut [] ((1 : Nat) : Int) w)
  rw [hk] at hb
  cases hb
  obtain ⟨F3, u3⟩ := hupd [] _ _ _ (setString_upd gq (h5q rfl) s) (by simp)
  rw [setKid_arrPut] at u3
  refine ⟨_, F3, ?_, UpdX.trans u1 (UpdX.trans u2 u3)⟩
  unfold setValue
  rw [if_neg hs]
  rcases hg with rfl | rfl <;> rfl

/-- With `IgnoreCase` a map with the names "A" and "a" becomes one member, which one depends on the iteration order. -/
theorem C53_ignoreCase_order : ∃ (g g' : Go), Order g g' ∧
    (setValue { envEx with ignoreCase := true } exHeap 7 g).bind (fun h => .ok ((h.mem 7).kvs.map Prod.fst)) = .ok [[65]] ∧
    (setValue { envEx with ignoreCase := true } exHeap 7 g').bind (fun h => .ok ((h.mem 7).kvs.map Prod.fst)) = .ok [[97]] :=
  ⟨.map [([65], .sc (.int 1)), ([97], .sc (.int 2))], .map [([97], .sc (.int 2)), ([65], .sc (.int 1))], .map (.swap _ _ _), by decide, by decide⟩

end Dxs.Reflect
