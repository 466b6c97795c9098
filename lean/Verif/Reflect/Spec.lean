import Verif.Reflect.Model
import Verif.Assoc

/-!
# What it means that a value mirrors Go data
-/

namespace Dxs.Reflect
open Dxs.Heap

/-- A value mirrors basic data. Of a float only the lower half of the cell counts; the extended type of an integer is not Go data. -/
def MirrorsSc : Sc → Val → Prop
  | .int x, v => ∃ e, v = .int e x
  | .uint x, v => ∃ e, v = .int e x
  | .str s, v => v = .str s
  | .bool true, v => v = .tru
  | .bool false, v => v = .fls
  | .f32 x, v => ∃ c : BitVec 64, v = .float c ∧ c.setWidth 32 = x
  | .f64 x, v => v = .double x

mutual
/-- A value mirrors Go data. The order of the members of an object is not part of this. -/
def Mirrors : Go → Val → Prop
  | .nil, v => v = .null
  | .sc s, v => MirrorsSc s v
  | .named s, v => MirrorsSc s v
  | .time x, v => v = .dateTime x
  | .bytes b, v => v = .bin 0 b
  | .map kvs, v => ∃ ku ms, v = .obj ku ms ∧ (ku = true ∨ ms = []) ∧ (ms.map Prod.fst).Perm (kvs.map Prod.fst) ∧ MirrorsM kvs ms
  | .slice xs, v => ∃ ys, v = .arr ys ∧ MirrorsL xs ys
  | .rmap kvs, v => ∃ ku ms, v = .obj ku ms ∧ (ku = true ∨ ms = []) ∧ (ms.map Prod.fst).Perm (kvs.map Prod.fst) ∧ MirrorsM kvs ms
  | .rslice xs, v => ∃ ys, v = .arr ys ∧ MirrorsL xs ys
  | .struct fs, v => ∃ ku ms, v = .obj ku ms ∧ (ku = true ∨ ms = []) ∧ (ms.map Prod.fst).Perm (fs.map Prod.fst) ∧ MirrorsM fs ms
  | .nilPtr _, v => v = .null
  | .other, _ => False
/-- Every entry has its member. -/
def MirrorsM : List (Bytes × Go) → List (Bytes × Val) → Prop
  | [], _ => True
  | (k, g) :: kvs, ms => (∃ w, (k, w) ∈ ms ∧ Mirrors g w) ∧ MirrorsM kvs ms
/-- The elements, one by one. -/
def MirrorsL : List Go → List Val → Prop
  | [], ys => ys = []
  | g :: xs, ys => ∃ w ws, ys = w :: ws ∧ Mirrors g w ∧ MirrorsL xs ws
end

mutual
/-- Data that `SetKeyvalue`/`SetIndexvalue` can represent: no nil, no types they do not know, and no two names in one map or struct
that are the same for the lookup (with `IgnoreCase`, a map may have such names). -/
def Fair (E : Env) : Go → Prop
  | .nil | .named _ | .nilPtr _ | .other => False
  | .sc _ | .time _ | .bytes _ => True
  | .map kvs => Assoc.Distinct E.keyMatch kvs ∧ FairM E kvs
  | .slice xs => FairL E xs
  | .rmap kvs => kvs ≠ [] ∧ Assoc.Distinct E.keyMatch kvs ∧ FairF E false kvs
  | .rslice xs => FairR E xs
  | .struct fs => Assoc.Distinct E.keyMatch fs ∧ FairF E true fs
/-- The entries. -/
def FairM (E : Env) : List (Bytes × Go) → Prop
  | [] => True
  | (_, g) :: kvs => Fair E g ∧ FairM E kvs
/-- The elements. -/
def FairL (E : Env) : List Go → Prop
  | [] => True
  | g :: xs => Fair E g ∧ FairL E xs
/-- The elements of a slice of another type: nil pointers are possible. -/
def FairR (E : Env) : List Go → Prop
  | [] => True
  | g :: xs => ((∃ b, g = .nilPtr b) ∨ Fair E g) ∧ FairR E xs
/-- The fields of a struct (no unsigned ones), or the entries of a map of another type. -/
def FairF (E : Env) (fld : Bool) : List (Bytes × Go) → Prop
  | [] => True
  | (_, g) :: fs => ((∃ s, g = .named s ∧ (fld = true → ∀ x, s ≠ .uint x)) ∨ Fair E g ∧ (fld = true → ∀ x, g ≠ .sc (.uint x))) ∧ FairF E fld fs
end

/-- The same data; only maps may hand out their entries in another order, at any depth. -/
inductive Order : Go → Go → Prop
  | refl (g) : Order g g
  | trans {a b c} : Order a b → Order b c → Order a c
  | map {kvs kvs'} : kvs.Perm kvs' → Order (.map kvs) (.map kvs')
  | rmap {kvs kvs'} : kvs.Perm kvs' → Order (.rmap kvs) (.rmap kvs')
  | inMap {l k g g' r} : Order g g' → Order (.map (l ++ (k, g) :: r)) (.map (l ++ (k, g') :: r))
  | inRmap {l k g g' r} : Order g g' → Order (.rmap (l ++ (k, g) :: r)) (.rmap (l ++ (k, g') :: r))
  | inStruct {l k g g' r} : Order g g' → Order (.struct (l ++ (k, g) :: r)) (.struct (l ++ (k, g') :: r))
  | inSlice {l g g' r} : Order g g' → Order (.slice (l ++ g :: r)) (.slice (l ++ g' :: r))
  | inRslice {l g g' r} : Order g g' → Order (.rslice (l ++ g :: r)) (.rslice (l ++ g' :: r))

/-! ## The order does not matter -/

theorem mirrorsM_iff {kvs : List (Bytes × Go)} {ms : List (Bytes × Val)} :
    MirrorsM kvs ms ↔ ∀ kv ∈ kvs, ∃ w, (kv.1, w) ∈ ms ∧ Mirrors kv.2 w := by
  induction kvs with
  | nil => simp [MirrorsM]
  | cons kv r ih =>
    obtain ⟨k, g⟩ := kv
    simp [MirrorsM, ih]

theorem mirrorsL_append {l r : List Go} {ys : List Val} : MirrorsL (l ++ r) ys ↔ ∃ y1 y2, ys = y1 ++ y2 ∧ MirrorsL l y1 ∧ MirrorsL r y2 := by
  induction l generalizing ys with
  | nil =>
    simp only [List.nil_append, MirrorsL]
    exact ⟨fun h => ⟨[], ys, rfl, rfl, h⟩, by rintro ⟨y1, y2, rfl, rfl, h⟩; exact h⟩
  | cons g l ih =>
    simp only [List.cons_append, MirrorsL, ih]
    constructor
    · rintro ⟨w, ws, rfl, h1, y1, y2, rfl, h2, h3⟩
      exact ⟨w :: y1, y2, rfl, ⟨w, y1, rfl, h1, h2⟩, h3⟩
    · rintro ⟨y1, y2, rfl, ⟨w, ws, rfl, h1, h2⟩, h3⟩
      exact ⟨w, ws ++ y2, rfl, h1, ws, y2, rfl, h2, h3⟩

theorem mirrorsM_at {l r : List (Bytes × Go)} {k : Bytes} {g g' : Go} (ih : ∀ v, Mirrors g' v → Mirrors g v) {ms : List (Bytes × Val)}
    (h : MirrorsM (l ++ (k, g') :: r) ms) : MirrorsM (l ++ (k, g) :: r) ms := by
  rw [mirrorsM_iff] at h ⊢
  intro kv hkv
  rcases List.mem_append.1 hkv with hm | hm
  · exact h kv (List.mem_append_left _ hm)
  · rcases List.mem_cons.1 hm with rfl | hm
    · obtain ⟨w, h1, h2⟩ := h (k, g') (by simp)
      exact ⟨w, h1, ih w h2⟩
    · exact h kv (List.mem_append_right _ (List.mem_cons_of_mem _ hm))

theorem mirrorsL_at {l r : List Go} {g g' : Go} (ih : ∀ v, Mirrors g' v → Mirrors g v) {ys : List Val}
    (h : MirrorsL (l ++ g' :: r) ys) : MirrorsL (l ++ g :: r) ys := by
  rw [mirrorsL_append] at h ⊢
  obtain ⟨y1, y2, rfl, h1, w, ws, rfl, h2, h3⟩ := h
  exact ⟨y1, w :: ws, rfl, h1, w, ws, rfl, ih w h2, h3⟩

/-- What mirrors data handed out in one order mirrors it in every order. -/
theorem Order.mirrors {g g' : Go} (o : Order g g') : ∀ v, Mirrors g' v → Mirrors g v := by
  induction o with
  | refl => exact fun _ h => h
  | trans _ _ ih1 ih2 => exact fun v h => ih1 v (ih2 v h)
  | map hp =>
    rintro v ⟨ku, ms, rfl, hk, hl, hm⟩
    refine ⟨ku, ms, rfl, hk, hl.trans (hp.map _).symm, ?_⟩
    rw [mirrorsM_iff] at hm ⊢
    exact fun kv hkv => hm kv (hp.mem_iff.1 hkv)
  | rmap hp =>
    rintro v ⟨ku, ms, rfl, hk, hl, hm⟩
    refine ⟨ku, ms, rfl, hk, hl.trans (hp.map _).symm, ?_⟩
    rw [mirrorsM_iff] at hm ⊢
    exact fun kv hkv => hm kv (hp.mem_iff.1 hkv)
  | inMap _ ih =>
    rintro v ⟨ku, ms, rfl, hk, hl, hm⟩
    exact ⟨ku, ms, rfl, hk, by simpa using hl, mirrorsM_at ih hm⟩
  | inRmap _ ih =>
    rintro v ⟨ku, ms, rfl, hk, hl, hm⟩
    exact ⟨ku, ms, rfl, hk, by simpa using hl, mirrorsM_at ih hm⟩
  | inStruct _ ih =>
    rintro v ⟨ku, ms, rfl, hk, hl, hm⟩
    exact ⟨ku, ms, rfl, hk, by simpa using hl, mirrorsM_at ih hm⟩
  | inSlice _ ih =>
    rintro v ⟨ys, rfl, hm⟩
    exact ⟨ys, rfl, mirrorsL_at ih hm⟩
  | inRslice _ ih =>
    rintro v ⟨ys, rfl, hm⟩
    exact ⟨ys, rfl, mirrorsL_at ih hm⟩

theorem fairM_iff {E : Env} {kvs : List (Bytes × Go)} : FairM E kvs ↔ ∀ kv ∈ kvs, Fair E kv.2 := by
  induction kvs with
  | nil => simp [FairM]
  | cons kv r ih => obtain ⟨k, g⟩ := kv; simp [FairM, ih]

theorem fairL_iff {E : Env} {xs : List Go} : FairL E xs ↔ ∀ g ∈ xs, Fair E g := by
  induction xs with
  | nil => simp [FairL]
  | cons g r ih => simp [FairL, ih]

theorem fairR_iff {E : Env} {xs : List Go} : FairR E xs ↔ ∀ g ∈ xs, (∃ b, g = .nilPtr b) ∨ Fair E g := by
  induction xs with
  | nil => simp [FairR]
  | cons g r ih => simp [FairR, ih]

theorem fairF_iff {E : Env} {fld : Bool} {fs : List (Bytes × Go)} : FairF E fld fs ↔
    ∀ kv ∈ fs, (∃ s, kv.2 = .named s ∧ (fld = true → ∀ x, s ≠ .uint x)) ∨ Fair E kv.2 ∧ (fld = true → ∀ x, kv.2 ≠ .sc (.uint x)) := by
  induction fs with
  | nil => simp [FairF]
  | cons kv r ih => obtain ⟨k, g⟩ := kv; simp only [FairF, ih, List.forall_mem_cons]

theorem distinct_perm {E : Env} (hs : ∀ a b, E.keyMatch a b = E.keyMatch b a) {α : Type} {kvs kvs' : List (Bytes × α)} (hp : kvs.Perm kvs')
    (h : Assoc.Distinct E.keyMatch kvs) : Assoc.Distinct E.keyMatch kvs' := by
  unfold Assoc.Distinct at h ⊢
  exact ((hp.map Prod.fst).pairwise_iff (fun {a b} h => by rw [hs]; exact h)).1 h

/-- Reordering a leaf leaves it as it is. -/
theorem Order.leaf {g g' : Go} (o : Order g g') : (∀ s, g = .sc s ↔ g' = .sc s) ∧ (∀ s, g = .named s ↔ g' = .named s) ∧ (∀ b, g = .nilPtr b ↔ g' = .nilPtr b) := by
  induction o with
  | refl => simp
  | trans _ _ i1 i2 => exact ⟨fun s => (i1.1 s).trans (i2.1 s), fun s => (i1.2.1 s).trans (i2.2.1 s), fun s => (i1.2.2 s).trans (i2.2.2 s)⟩
  | _ => simp

theorem Order.fair {E : Env} (hs : ∀ a b, E.keyMatch a b = E.keyMatch b a) {g g' : Go} (o : Order g g') : Fair E g → Fair E g' := by
  induction o with
  | refl => exact id
  | trans _ _ i1 i2 => exact fun h => i2 (i1 h)
  | map hp =>
    rintro ⟨h1, h2⟩
    refine ⟨distinct_perm hs hp h1, ?_⟩
    rw [fairM_iff] at h2 ⊢
    exact fun kv hkv => h2 kv (hp.mem_iff.2 hkv)
  | rmap hp =>
    rintro ⟨h0, h1, h2⟩
    refine ⟨fun e => h0 (by rw [e] at hp; exact hp.eq_nil), distinct_perm hs hp h1, ?_⟩
    rw [fairF_iff] at h2 ⊢
    exact fun kv hkv => h2 kv (hp.mem_iff.2 hkv)
  | inMap _ ih =>
    rintro ⟨h1, h2⟩
    refine ⟨by simpa [Assoc.Distinct] using h1, ?_⟩
    rw [fairM_iff] at h2 ⊢
    simp only [List.mem_append, List.mem_cons] at h2 ⊢
    rintro kv (h | rfl | h)
    · exact h2 kv (Or.inl h)
    · exact ih (h2 _ (Or.inr (Or.inl rfl)))
    · exact h2 kv (Or.inr (Or.inr h))
  | inRmap o ih =>
    rintro ⟨h0, h1, h2⟩
    refine ⟨by simp, by simpa [Assoc.Distinct] using h1, ?_⟩
    rw [fairF_iff] at h2 ⊢
    simp only [List.mem_append, List.mem_cons] at h2 ⊢
    rintro kv (h | rfl | h)
    · exact h2 kv (Or.inl h)
    · rcases h2 _ (Or.inr (Or.inl rfl)) with ⟨s, e, hx⟩ | ⟨hf, hx⟩
      · exact Or.inl ⟨s, (o.leaf.2.1 s).1 e, hx⟩
      · exact Or.inr ⟨ih hf, fun hb x e => hx hb x ((o.leaf.1 _).2 e)⟩
    · exact h2 kv (Or.inr (Or.inr h))
  | inStruct o ih =>
    rintro ⟨h1, h2⟩
    refine ⟨by simpa [Assoc.Distinct] using h1, ?_⟩
    rw [fairF_iff] at h2 ⊢
    simp only [List.mem_append, List.mem_cons] at h2 ⊢
    rintro kv (h | rfl | h)
    · exact h2 kv (Or.inl h)
    · rcases h2 _ (Or.inr (Or.inl rfl)) with ⟨s, e, hx⟩ | ⟨hf, hx⟩
      · exact Or.inl ⟨s, (o.leaf.2.1 s).1 e, hx⟩
      · exact Or.inr ⟨ih hf, fun hb x e => hx hb x ((o.leaf.1 _).2 e)⟩
    · exact h2 kv (Or.inr (Or.inr h))
  | inSlice _ ih =>
    intro h2
    simp only [Fair] at h2 ⊢
    rw [fairL_iff] at h2 ⊢
    simp only [List.mem_append, List.mem_cons] at h2 ⊢
    rintro g (h | rfl | h)
    · exact h2 g (Or.inl h)
    · exact ih (h2 _ (Or.inr (Or.inl rfl)))
    · exact h2 g (Or.inr (Or.inr h))
  | inRslice o ih =>
    intro h2
    simp only [Fair] at h2 ⊢
    rw [fairR_iff] at h2 ⊢
    simp only [List.mem_append, List.mem_cons] at h2 ⊢
    rintro g (h | rfl | h)
    · exact h2 g (Or.inl h)
    · rcases h2 _ (Or.inr (Or.inl rfl)) with ⟨b, e⟩ | hf
      · exact Or.inl ⟨b, (o.leaf.2.2 b).1 e⟩
      · exact Or.inr (ih hf)
    · exact h2 g (Or.inr (Or.inr h))

end Dxs.Reflect
