import Verif.Reflect.Std
import Verif.Props.Reflect

/-!
# C54: ToStdValue into a map
-/

namespace Dxs.Reflect
open Dxs.Heap

/-! ## The specification -/

mutual
/-- The data of a value. -/
def dataOf (E : Env) : Val → Go
  | .nil => .nil
  | .obj ku kvs => .map (dataM E ku kvs)
  | .arr xs => .slice (dataL E xs)
  | .str s => .sc (.str s)
  | .raw s => .sc (.str (E.unesc s))
  | .int _ x => .sc (.int x)
  | .float c => .sc (.f32 (lo32 c))
  | .double x => .sc (.f64 x)
  | .dateTime x => .time x
  | .bin _ b => .bytes b
  | .exbin _ b => .bytes b.tail
  | .null => .nil
  | .tru => .sc (.bool true)
  | .fls => .sc (.bool false)
  | .nan => .sc (.f64 0x7ff8000000000001)
  | .inf => .sc (.f64 0x7ff0000000000000)
/-- The members; names that still have their escapes are unescaped. -/
def dataM (E : Env) (ku : Bool) : List (Bytes × Val) → List (Bytes × Go)
  | [] => []
  | (k, v) :: kvs => (if ku then k else E.unesc k, dataOf E v) :: dataM E ku kvs
/-- The elements. -/
def dataL (E : Env) : List Val → List Go
  | [] => []
  | v :: vs => dataOf E v :: dataL E vs
end

mutual
/-- Values for which `ToStdValue` gives the data: objects of anything but arrays (empty ones are all right), NaN, Inf and nil; no two members of the
same name, no names with escapes left. -/
def Plain (E : Env) : Val → Prop
  | .nil | .nan | .inf => False
  | .arr xs => xs = []
  | .obj ku kvs => (ku = true ∨ ∀ kv ∈ kvs, E.unesc kv.1 = kv.1) ∧ (kvs.map Prod.fst).Nodup ∧ PlainM E kvs
  | _ => True
/-- The members. -/
def PlainM (E : Env) : List (Bytes × Val) → Prop
  | [] => True
  | (_, v) :: kvs => Plain E v ∧ PlainM E kvs
end

/-! ## C54 -/

variable {E : Env}

theorem put_fresh {dst : List (Bytes × Go)} {k : Bytes} {g : Go} (h : k ∉ dst.map Prod.fst) : Assoc.put (· == ·) dst k g = dst ++ [(k, g)] := by
  refine Assoc.put_new ?_
  intro kv hkv
  simp only [beq_eq_false_iff_ne]
  rintro rfl
  exact h (List.mem_map_of_mem hkv)

mutual
theorem stdVal_plain : ∀ (v : Val), Plain E v → stdVal E v = .ok (some (dataOf E v))
  | .nil, h | .nan, h | .inf, h => by simp [Plain] at h
  | .arr xs, h => by simp only [Plain] at h; subst h; rfl
  | .obj ku kvs, h => by
    simp only [stdVal, stdMap_plain ku kvs [] h.1 h.2.2 h.2.1 (by simp), List.nil_append, Res.bind_ok, dataOf]
  | .str _, _ | .raw _, _ | .int _ _, _ | .float _, _ | .double _, _ | .dateTime _, _ | .bin _ _, _ | .exbin _ _, _ | .null, _ | .tru, _ | .fls, _ => rfl
theorem stdMap_plain (ku : Bool) : ∀ (kvs : List (Bytes × Val)) (dst : List (Bytes × Go)), (ku = true ∨ ∀ kv ∈ kvs, E.unesc kv.1 = kv.1) → PlainM E kvs →
    (kvs.map Prod.fst).Nodup → (∀ k ∈ kvs.map Prod.fst, k ∉ dst.map Prod.fst) → stdMap E dst kvs = .ok (dst ++ dataM E ku kvs)
  | [], dst, _, _, _, _ => by simp [stdMap, dataM]
  | (k, v) :: kvs, dst, hk, hp, hn, hd => by
    have hkk : (if ku then k else E.unesc k) = k := by
      rcases hk with rfl | hk
      · rfl
      · split
        · rfl
        · exact hk (k, v) List.mem_cons_self
    simp only [List.map_cons, List.nodup_cons] at hn
    have e : stdMap E (dst ++ [(k, dataOf E v)]) kvs = .ok (dst ++ [(k, dataOf E v)] ++ dataM E ku kvs) := by
      refine stdMap_plain ku kvs _ (hk.imp id (fun h kv hkv => h kv (List.mem_cons_of_mem _ hkv))) hp.2 hn.2 ?_
      intro k' hk' hm
      simp only [List.map_append, List.map_cons, List.map_nil, List.mem_append, List.mem_singleton] at hm
      rcases hm with hm | rfl
      · exact hd k' (List.mem_cons_of_mem _ hk') hm
      · exact hn.1 hk'
    simp only [stdMap, stdVal_plain v hp.1, Res.bind_ok, put_fresh (hd k List.mem_cons_self), e, dataM, hkk, List.append_assoc, List.cons_append, List.nil_append]
end

/-- C54, for values without arrays, NaN, Inf and names with escapes: `ToStdValue` adds the data of the value to the map. The new names are not yet in the map. -/
theorem C54_map_partial {ku : Bool} {kvs : List (Bytes × Val)} (hp : Plain E (.obj ku kvs)) (dst : List (Bytes × Go))
    (hd : ∀ k ∈ kvs.map Prod.fst, k ∉ dst.map Prod.fst) :
    ∃ m, dataOf E (.obj ku kvs) = .map m ∧ toStdMap E dst (.obj ku kvs) = .ok (true, dst ++ m) :=
  ⟨_, rfl, by simp only [toStdMap, stdMap_plain ku kvs dst hp.1 hp.2.2 hp.2.1 hd, Res.bind_ok]⟩

/-- `{"a":{"b":1,"c":raw "\n"},"d":null}`. -/
def exPlain : Val := .obj false [([97], .obj true [([98], .int 0 1), ([99], .raw [92, 110])]), ([100], .null)]

theorem exPlain_plain : Plain envEx exPlain := by
  simp only [exPlain, Plain, PlainM, and_true, true_and]
  exact ⟨Or.inr (by decide), by decide, by simp, by decide⟩

example : toStdMap envEx [([120], .nil)] exPlain =
    .ok (true, [([120], .nil), ([97], .map [([98], .sc (.int 1)), ([99], .sc (.str [10]))]), ([100], .nil)]) := by
  obtain ⟨m, h1, h2⟩ := C54_map_partial exPlain_plain [([120], .nil)] (by decide)
  obtain rfl := Go.map.inj h1
  exact h2

/-- Arrays are lost: a nested array comes out as that many nils, whatever its elements are. -/
theorem C54_arrays_lost (k : Bytes) (xs : List Val) {r : Bool × List (Bytes × Go)} (h : toStdMap E [] (.obj true [(k, .arr xs)]) = .ok r) :
    r = (true, [(k, .slice (List.replicate xs.length .nil))]) := by
  simp only [toStdMap] at h
  obtain ⟨m, h1, h2⟩ := Res.bind_eq_ok.1 h
  simp only [stdMap] at h1
  obtain ⟨g, h3, h4⟩ := Res.bind_eq_ok.1 h1
  simp only [stdVal] at h3
  obtain ⟨_, -, h5⟩ := Res.bind_eq_ok.1 h3
  simp only [Res.ok.injEq] at h2 h4 h5
  subst h5
  subst h4
  subst h2
  rfl

example : toStdMap envEx [] (.obj true [([97], .arr [.int 0 1, .str [98]])]) = .ok (true, [([97], .slice [.nil, .nil])]) := rfl

/-- A `[]interface{}` (or what is behind it) never changes. -/
theorem C54_slice_untouched (dst : List Go) (v : Val) {r : Bool × List Go} (h : toStdSlice E dst v = .ok r) : r.2 = dst := by
  cases v with
  | arr xs =>
    simp only [toStdSlice] at h
    obtain ⟨_, -, h5⟩ := Res.bind_eq_ok.1 h
    simp only [Res.ok.injEq] at h5
    subst h5
    rfl
  | nil => simp [toStdSlice] at h
  | _ => simp only [toStdSlice, Res.ok.injEq] at h; subst h; rfl

/-- A name that has not been looked up since parsing keeps its escapes: `{"\/":1}` gives the name `\/`. -/
theorem C54_escaped_name : toStdMap envEx [] (.obj false [([92, 47], .int 0 1)]) = .ok (true, [([92, 47], .sc (.int 1))]) ∧
    dataOf envEx (.obj false [([92, 47], .int 0 1)]) = .map [([47], .sc (.int 1))] := ⟨rfl, rfl⟩

/-- NaN and Inf are left out. -/
theorem C54_nan_dropped (k : Bytes) (v : Val) (hv : v = .nan ∨ v = .inf) (ku : Bool) (dst : List (Bytes × Go)) :
    toStdMap E dst (.obj ku [(k, v)]) = .ok (true, dst) := by
  rcases hv with rfl | rfl <;> rfl

/-- A member without value makes it panic. -/
theorem C54_nil_panics (k : Bytes) (ku : Bool) : toStdMap E [] (.obj ku [(k, .nil)]) = .panic := rfl

/-! ## C79: there and back -/

mutual
/-- Nested `map[string]interface{}` of int64, string, bool, float32, float64, `time.Time` and `[]byte`, without names that the lookup takes for the same. -/
def Simple (E : Env) : Go → Prop
  | .sc (.uint _) => False
  | .sc _ | .time _ | .bytes _ => True
  | .map kvs => Assoc.Distinct E.keyMatch kvs ∧ SimpleM E kvs
  | _ => False
/-- The entries. -/
def SimpleM (E : Env) : List (Bytes × Go) → Prop
  | [] => True
  | (_, g) :: kvs => Simple E g ∧ SimpleM E kvs
end

mutual
theorem Simple.fair : ∀ (g : Go), Simple E g → Fair E g
  | .nil, h | .named _, h | .nilPtr _, h | .other, h | .slice _, h | .rmap _, h | .rslice _, h | .struct _, h => by simp [Simple] at h
  | .sc _, _ | .time _, _ | .bytes _, _ => trivial
  | .map kvs, h => ⟨h.1, SimpleM.fair kvs h.2⟩
theorem SimpleM.fair : ∀ (kvs : List (Bytes × Go)), SimpleM E kvs → FairM E kvs
  | [], _ => trivial
  | (_, g) :: kvs, h => ⟨Simple.fair g h.1, SimpleM.fair kvs h.2⟩
end

theorem distinct_nodup {α : Type} {kvs : List (Bytes × α)} (h : Assoc.Distinct E.keyMatch kvs) : (kvs.map Prod.fst).Nodup := by
  refine List.Pairwise.imp ?_ h
  rintro a b hab rfl
  rw [E.keyMatch_refl] at hab
  cases hab

mutual
theorem exact_data : ∀ (g : Go) {w : Val}, Simple E g → Exact g w → Plain E w ∧ dataOf E w = g
  | .nil, _, h, _ | .named _, _, h, _ | .nilPtr _, _, h, _ | .other, _, h, _ | .slice _, _, h, _ | .rmap _, _, h, _ | .rslice _, _, h, _ | .struct _, _, h, _ => by
    simp [Simple] at h
  | .sc (.int x), _, _, e => by obtain ⟨c, rfl⟩ := e; exact ⟨trivial, rfl⟩
  | .sc (.uint x), _, h, _ => by simp [Simple] at h
  | .sc (.str x), _, _, e => by cases e; exact ⟨trivial, rfl⟩
  | .sc (.bool true), _, _, e => by cases e; exact ⟨trivial, rfl⟩
  | .sc (.bool false), _, _, e => by cases e; exact ⟨trivial, rfl⟩
  | .sc (.f32 x), _, _, e => by obtain ⟨c, rfl, h⟩ := e; exact ⟨trivial, by simp [dataOf, lo32, h]⟩
  | .sc (.f64 x), _, _, e => by cases e; exact ⟨trivial, rfl⟩
  | .time x, _, _, e => by cases e; exact ⟨trivial, rfl⟩
  | .bytes x, _, _, e => by cases e; exact ⟨trivial, rfl⟩
  | .map kvs, _, h, e => by
    obtain ⟨ku, ms, rfl, op, m⟩ := e
    obtain ⟨h1, h2⟩ := exactM_data kvs h.2 m ku op
    refine ⟨⟨?_, ?_, h1⟩, by rw [dataOf, h2]⟩
    · rcases op with rfl | rfl
      · exact Or.inl rfl
      · exact Or.inr (by simp)
    · rw [ExactM.keys kvs m]; exact distinct_nodup h.1
theorem exactM_data : ∀ (kvs : List (Bytes × Go)) {ms : List (Bytes × Val)}, SimpleM E kvs → ExactM kvs ms → ∀ ku, (ku = true ∨ ms = []) → PlainM E ms ∧ dataM E ku ms = kvs
  | [], _, _, e, _, _ => by cases e; exact ⟨trivial, rfl⟩
  | (k, g) :: kvs, _, h, e, ku, op => by
    obtain ⟨w, ws, rfl, e1, e2⟩ := e
    obtain rfl : ku = true := by rcases op with h | h; exact h; cases h
    obtain ⟨a1, a2⟩ := exact_data g h.1 e1
    obtain ⟨b1, b2⟩ := exactM_data kvs h.2 e2 true (Or.inl rfl)
    exact ⟨⟨a1, b1⟩, by simp only [dataM, if_true, a2, b2]⟩
end

/-- C79: what `SetValue` stored, `ToStdValue` gives back, entry for entry. (`kvs` is the map in any order in which Go may hand it out.) -/
theorem C79_there_and_back {kvs : List (Bytes × Go)} (hs : Simple E (.map kvs)) {h : Heap} {p : Ptr} {v : Val} {F : List Ptr}
    (gd : Good h (some p) v F) (h5 : 5 ≤ p) (ht : v.vt ≠ .dateTime) :
    ∃ h' w F', setValue E h p (.map kvs) = .ok h' ∧ Upd h F h' (some p) w F' ∧ toStdMap E [] w = .ok (true, kvs) := by
  obtain ⟨h', w, F', e, u, m⟩ := setValue_upd (.map kvs) ⟨Simple.fair _ hs, by simp, by simp⟩ gd h5 ht
  obtain ⟨hp, hd⟩ := exact_data _ hs m
  obtain ⟨ku, ms, rfl, -⟩ := m
  obtain ⟨m, h1, h2⟩ := C54_map_partial hp [] (by simp)
  rw [hd] at h1
  cases h1
  exact ⟨h', _, F', e, u, h2⟩

example : ∃ h' w F', setValue envEx exHeap 7 (.map [([98], .map [([47], .sc (.bool true)), ([116], .time 5)]), ([97], .sc (.f32 3))]) = .ok h' ∧ Upd exHeap [7, 8] h' (some 7) w F' ∧
    toStdMap envEx [] w = .ok (true, [([98], .map [([47], .sc (.bool true)), ([116], .time 5)]), ([97], .sc (.f32 3))]) := by
  refine C79_there_and_back ?_ exGood7 (by decide) (by decide)
  simp only [Simple, SimpleM, Assoc.Distinct, and_true]
  decide

end Dxs.Reflect
