import Verif.Props.Again
import Verif.Props.BsonReadingAll

/-! # C133 for BSON, exactly: which of the objects that were read are written and read again as they were -/

namespace Dxs.Bson
open Spec
variable {E : Env}

mutual
/-- What the reader gives can be written, and what is written is well-formed. -/
theorem given_ready : ∀ v : Val, Given E v → (payload (data E v)).length < 2 ^ 31 → Writable v ∧ WF (data E v) ∧ NoOld (data E v)
  | .arr xs, g, hl => by
    simp only [data, payload, frame_length] at hl
    obtain ⟨h1, h2, h3⟩ := givenL_ready xs 0 g (by omega)
    exact ⟨h1, ⟨hl, h2⟩, h3⟩
  | .obj ku kvs, g, hl => by
    simp only [data, payload, frame_length] at hl
    have : dataM E ku kvs = dataM E true kvs := by
      rcases g.1 with h | h <;> rw [h]
      simp [dataM]
    rw [this] at hl
    obtain ⟨h1, h2, h3⟩ := givenM_ready kvs g.2.2 (by omega)
    rw [data, this]
    exact ⟨h1, ⟨hl, h2⟩, h3⟩
  | .bin e b, g, hl => by
    rcases g with rfl | ⟨rfl, h⟩ | ⟨rfl, h⟩
    · refine ⟨.inl rfl, ?_, ?_⟩
      · simp [data, payload] at hl; simp [data, WF]; omega
      · simp [data, NoOld]
    · exact ⟨.inr (.inr (.inl ⟨rfl, by omega⟩)), by simp [data, WF, h], by simp [data, NoOld]⟩
    · exact ⟨.inr (.inr (.inr ⟨rfl, by omega⟩)), by simp [data, WF, h], by simp [data, NoOld]⟩
  | .int e c, g, _ => by
    have := toInt_range c
    refine ⟨trivial, ?_, ?_⟩ <;> rw [data] <;> split
    · trivial
    · split
      · assumption
      · exact this
    · trivial
    · split <;> trivial
  | .str s, _, hl => by
    simp [data, payload] at hl
    exact ⟨trivial, by show s.length + 1 < 2 ^ 31; omega, trivial⟩
  | .dateTime c, _, _ => ⟨trivial, toInt_range _, trivial⟩
  | .null, _, _ | .tru, _, _ | .fls, _, _ | .double _, _, _ => ⟨trivial, trivial, trivial⟩
  | .nil, g, _ | .raw _, g, _ | .float _, g, _ | .exbin _ _, g, _ | .nan, g, _ | .inf, g, _ => g.elim
theorem givenL_ready : ∀ (vs : List Val) (i : Nat), GivenL E vs → (elems i (dataL E vs)).length < 2 ^ 31 → WritableL vs ∧ WFL (dataL E vs) ∧ NoOldL (dataL E vs)
  | [], _, _, _ => ⟨trivial, trivial, trivial⟩
  | v :: vs, i, g, hl => by
    simp [dataL, elems] at hl
    obtain ⟨h1, h2, h3⟩ := given_ready v g.1 (by omega)
    obtain ⟨h4, h5, h6⟩ := givenL_ready vs (i + 1) g.2 (by omega)
    exact ⟨⟨h1, h4⟩, ⟨h2, h5⟩, h3, h6⟩
theorem givenM_ready : ∀ kvs : List (Bytes × Val), GivenM E kvs → (members (dataM E true kvs)).length < 2 ^ 31 → WritableM kvs ∧ WFM (dataM E true kvs) ∧ NoOldM (dataM E true kvs)
  | [], _, _ => ⟨trivial, trivial, trivial⟩
  | (k, v) :: kvs, g, hl => by
    simp [dataM, members] at hl
    obtain ⟨h1, h2, h3⟩ := given_ready v g.1.2 (by omega)
    obtain ⟨h4, h5, h6⟩ := givenM_ready kvs g.2 (by omega)
    exact ⟨⟨h1, h4⟩, ⟨g.1.1, h2, h5⟩, h3, h6⟩
end

mutual
theorem solid_full : ∀ v : Val, Solid (data E v) → Full v
  | .arr xs, h => ⟨by rintro rfl; exact h.1 rfl, solid_fullL xs h.2⟩
  | .obj ku kvs, h => ⟨by rintro rfl; exact h.1 rfl, solid_fullM ku kvs h.2⟩
  | .bin _ _, _ | .int _ _, _ | .str _, _ | .dateTime _, _ | .null, _ | .tru, _ | .fls, _ | .double _, _ | .nil, _ | .raw _, _ | .float _, _ | .exbin _ _, _ | .nan, _ | .inf, _ => trivial
theorem solid_fullL : ∀ vs : List Val, SolidL (dataL E vs) → FullL vs
  | [], _ => trivial
  | v :: vs, h => ⟨solid_full v h.1, solid_fullL vs h.2⟩
theorem solid_fullM (ku : Bool) : ∀ kvs : List (Bytes × Val), SolidM (dataM E ku kvs) → FullM kvs
  | [], _ => trivial
  | (_, v) :: kvs, h => ⟨solid_full v h.1, solid_fullM ku kvs h.2⟩
end

mutual
theorem fixed_kept : ∀ v : Val, Fixed E v → Leaves (Kept E) v
  | .arr xs, h => fixed_keptL xs h
  | .obj ku kvs, h => fixed_keptM kvs h.2.2
  | .bin e _, h => by
    rcases h with ⟨rfl, _⟩ | ⟨rfl, _⟩
    · exact fun h => absurd h (by decide)
    · exact fun h => absurd h (by decide)
  | .int e c, h => by
    rcases h with h | ⟨_, h⟩
    · exact .inl h
    · exact .inr (by omega)
  | .dateTime _, h => h
  | .str _, _ | .null, _ | .tru, _ | .fls, _ | .double _, _ => trivial
  | .nil, h | .raw _, h | .float _, h | .exbin _ _, h | .nan, h | .inf, h => h.elim
theorem fixed_keptL : ∀ vs : List Val, FixedL E vs → LeavesL (Kept E) vs
  | [], _ => trivial
  | v :: vs, h => ⟨fixed_kept v h.1, fixed_keptL vs h.2⟩
theorem fixed_keptM : ∀ kvs : List (Bytes × Val), FixedM E kvs → LeavesM (Kept E) kvs
  | [], _ => trivial
  | (_, v) :: kvs, h => ⟨fixed_kept v h.1, fixed_keptM kvs h.2⟩
end

/-- **C133** for BSON, exactly: of the objects that NewValueFromBson gives, those and only those are written and read again as they were that have no empty object or array in them and whose leaves are all kept. -/
theorem C133_bson_exact (E : Env) (hE : IndexLaw E) (hid hid' b : Bytes) (v : Val) (h : newValueFromBson E hid b = .ok v) (hl : (payload (data E v)).length < 2 ^ 31) :
    ∃ bs, value2Bson E v [] = .ok bs ∧ (newValueFromBson E hid' bs = .ok v ↔ Leaves (Kept E) v ∧ Full v) := by
  obtain ⟨g, ku, kvs, rfl⟩ := given_obj E hid b v h
  obtain ⟨hw, hf, hn⟩ := given_ready _ g hl
  have hd := C12_document E ku kvs [] hw
  rw [List.nil_append] at hd
  refine ⟨_, hd, ?_, ?_⟩
  · intro e
    obtain ⟨h1, h2⟩ := (C15_exact E hE hid' [] ku kvs hw hf hn).1 ⟨_, hd, by rw [List.append_nil]; exact e⟩
    exact ⟨fixed_kept _ h2, solid_full _ h1⟩
  · rintro ⟨h1, h2⟩
    obtain ⟨bs, e1, e2⟩ := C133_bson_partial E hE hid hid' b _ h h1 h2
    rw [hd] at e1
    cases e1
    exact e2 (by simpa [data, payload, document] using hl)

example : Leaves (Kept envEx) (.obj true [([97], .arr [.int 0 5])]) ∧ Full (.obj true [([97], .arr [.int 0 5])]) := by
  simp [Leaves, LeavesM, LeavesL, Full, FullM, FullL, Kept]
example : ¬ Leaves (Kept envEx) (.obj true [([97], .int 0 (-1))]) := by
  simp only [Leaves, LeavesM, Kept]; decide

end Dxs.Bson
