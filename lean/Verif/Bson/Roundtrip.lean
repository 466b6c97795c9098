import Verif.Bson.Robust

/-! Helper lemmas for the BSON round trip. -/

namespace Dxs.Bson
open Spec

theorem newValue_doc (E : Env) (hE : IndexLaw E) (hid : Bytes) (kvs : List (Bytes × BElem)) (r : Bytes)
    (hw : WF (.doc kvs)) (hr : Readable E (.doc kvs)) :
    ∃ vs, DenotesM E kvs vs ∧ newValueFromBson E hid (document kvs ++ r) =
      .ok (.obj true (Assoc.lastWins E.keyMatch vs)) := by
  obtain ⟨hw, hwm⟩ := hw
  obtain ⟨hne, hp, hrm⟩ := hr
  have hfl : (frame (members kvs) ++ r).length = (members kvs).length + 5 + r.length := by
    simp [frame_length]
  obtain ⟨vs, hv, e⟩ := decM_ok E hE hid kvs r (frame (members kvs) ++ r) ((members kvs).length + 5) 4
    (2 * (frame (members kvs) ++ r).length + 1)
    false [] (frame_drop _ _) (by omega) hne hwm hrm hp (Or.inr rfl) (by simp) (by omega)
  refine ⟨vs, hv, ?_⟩
  unfold newValueFromBson document
  rw [parseDoc]
  have hu : uint32 hid (frame (members kvs) ++ r) = .ok ((members kvs).length + 5) := by
    unfold frame
    rw [List.append_assoc, List.append_assoc]
    exact uint32_le hid _ _ (by omega)
  have h4 : ¬ (frame (members kvs) ++ r).length ≤ 4 := by omega
  have hlt : ¬ ((members kvs).length + 5 > (frame (members kvs) ++ r).length) := by omega
  rw [if_neg h4, hu]
  simp only [Res.bind_ok]
  rw [if_neg hlt, e]
  rfl

/-- Decoding a document with a single member, given how its value is decoded. -/
theorem newValue_one (E : Env) (hid : Bytes) (k : Bytes) (e : BElem) (r : Bytes) (v : Val)
    (hk : (0 : UInt8) ∉ k) (hl : (document [(k, e)]).length < 2 ^ 32)
    (hp : ∀ f, 2 * (payload e ++ 0 :: r).length + 3 ≤ f →
      parseElem E hid f (ty e) (payload e ++ 0 :: r) (blank (targetType (ty e))) = .ok ((payload e).length, v)) :
    newValueFromBson E hid (document [(k, e)] ++ r) = .ok (.obj true [(k, v)]) := by
  unfold document at hl ⊢
  have hm : members [(k, e)] = ty e :: k ++ 0 :: payload e := by simp [members]
  have hml : (members [(k, e)]).length = k.length + (payload e).length + 2 := by rw [hm]; simp; omega
  have hfl : (frame (members [(k, e)]) ++ r).length = (members [(k, e)]).length + 5 + r.length := by
    simp [frame_length]
  unfold newValueFromBson
  rw [parseDoc]
  have hu : uint32 hid (frame (members [(k, e)]) ++ r) = .ok ((members [(k, e)]).length + 5) := by
    rw [frame_length] at hl
    unfold frame
    rw [List.append_assoc, List.append_assoc]
    exact uint32_le hid _ _ hl
  rw [if_neg (by omega), hu]
  simp only [Res.bind_ok]
  rw [if_neg (by omega)]
  generalize hbg : frame (members [(k, e)]) ++ r = b at *
  have hb : b.drop 4 = ty e :: k ++ 0 :: payload e ++ 0 :: r := by
    rw [← hbg, frame_drop, hm]
  simp only [List.cons_append, List.append_assoc] at hb
  have hb1 : b.drop (4 + 1) = k ++ 0 :: (payload e ++ 0 :: r) := by
    have := drop_after b [ty e] _ 4 1 hb rfl
    simpa using this
  have hb2 : b.drop (4 + 1 + k.length + 1) = payload e ++ 0 :: r := by
    have := drop_after b (k ++ [0]) (payload e ++ 0 :: r) (4 + 1) (k.length + 1)
      (by rw [hb1]; simp) (by simp)
    rw [← this]; rfl
  have hb3 : b.drop (4 + 1 + k.length + 1 + (payload e).length) = 0 :: r :=
    drop_after b _ _ _ _ hb2 rfl
  have hidx : indexByName E false [] k = (none, true, []) := indexByName_new (Or.inr rfl) (by simp)
  rw [show 2 * b.length + 1 = 2 * b.length + 1 from rfl, docLoop, if_pos (by omega), at_drop b 4 _ _ hb]
  have hp' := hp (2 * b.length) (by simp at hml ⊢; omega)
  simp only [Res.bind_ok, hb1, idxOf_key k _ hk, List.take_left, hidx, hb2, hp']
  rw [if_pos (end_check b _ _ r hb3 (by omega))]
  simp

/-! ### from surviving values to the specification -/

theorem dataM_keys (E : Env) (ku : Bool) (kvs : List (Bytes × Val)) :
    (dataM E ku kvs).map Prod.fst = (unescKeys E ku kvs).map Prod.fst := by
  induction kvs with
  | nil => simp [dataM, unescKeys]
  | cons x xs ih =>
    obtain ⟨k, v⟩ := x
    simp only [dataM, List.map_cons, ih]
    cases ku <;> simp [unescKeys]

mutual
theorem survives_writable (E : Env) : ∀ v : Val, Survives E v → Writable v
  | .arr xs, h => survivesL_writable E xs h.2
  | .obj ku kvs, h => survivesM_writable E ku kvs h.2.2
  | .bin ext b, h => by
    rcases h with ⟨rfl, h⟩ | ⟨rfl, h⟩
    · exact Or.inr (Or.inr (Or.inl ⟨rfl, by omega⟩))
    · exact Or.inr (Or.inr (Or.inr ⟨rfl, by omega⟩))
  | .nil, _ | .null, _ | .tru, _ | .fls, _ | .int _ _, _ | .double _, _ | .dateTime _, _ | .str _, _ | .raw _, _ =>
    trivial
  | .float _, h | .exbin _ _, h | .nan, h | .inf, h => h.elim
theorem survivesL_writable (E : Env) : ∀ vs : List Val, SurvivesL E vs → WritableL vs
  | [], _ => trivial
  | v :: vs, h => ⟨survives_writable E v h.1, survivesL_writable E vs h.2⟩
theorem survivesM_writable (E : Env) (ku : Bool) : ∀ vs : List (Bytes × Val), SurvivesM E ku vs → WritableM vs
  | [], _ => trivial
  | (_, v) :: vs, h => ⟨survives_writable E v h.2.1, survivesM_writable E ku vs h.2.2⟩
end

theorem toInt_range (c : BitVec 64) : -2 ^ 63 ≤ c.toInt ∧ c.toInt < 2 ^ 63 := by
  have h1 := BitVec.le_toInt c; have h2 := BitVec.toInt_lt (x := c); simp at h1 h2; omega

mutual
theorem survives_wf (E : Env) : ∀ v : Val, Survives E v → (payload (data E v)).length < 2 ^ 31 →
    WF (data E v) ∧ Readable E (data E v)
  | .arr xs, h, hl => by
    have hne : dataL E xs ≠ [] := by
      cases xs with
      | nil => exact absurd rfl h.1
      | cons v vs => simp [dataL]
    simp only [data, payload, frame_length] at hl
    obtain ⟨h1, h2⟩ := survivesL_wf E xs 0 h.2 (by omega)
    exact ⟨⟨hl, h1⟩, hne, h2⟩
  | .obj ku kvs, h, hl => by
    have hne : dataM E ku kvs ≠ [] := by
      cases kvs with
      | nil => exact absurd rfl h.1
      | cons v vs => simp [dataM]
    simp only [data, payload, frame_length] at hl
    obtain ⟨h1, h2⟩ := survivesM_wf E ku kvs h.2.2 (by omega)
    refine ⟨⟨hl, h1⟩, hne, ?_, h2⟩
    have hk := h.2.1
    rw [← dataM_keys, List.pairwise_map] at hk
    refine hk.imp ?_
    intro a b h _
    exact h
  | .bin ext b, h, hl => by
    rcases h with ⟨rfl, h⟩ | ⟨rfl, h⟩ <;> simp [data, WF, Readable, h]
  | .int ext c, h, _ => by
    have := toInt_range c
    simp only [data]
    by_cases he : ext = 17
    · simp [he, WF, Readable]
    · rcases h with h | h
      · exact absurd h he
      by_cases h2 : (-2 ^ 31 ≤ c.toInt ∧ c.toInt < 2 ^ 31)
      · rw [if_neg he, if_pos h2]
        exact ⟨h2, by show 0 ≤ c.toInt; omega⟩
      · rw [if_neg he, if_neg h2]
        exact ⟨this, trivial⟩
  | .str s, _, hl => by
    simp [data, payload] at hl
    exact ⟨by show s.length + 1 < 2 ^ 31; omega, trivial⟩
  | .raw s, _, hl => by
    simp [data, payload] at hl
    exact ⟨by show (E.unesc s).length + 1 < 2 ^ 31; omega, trivial⟩
  | .dateTime c, _, _ => ⟨toInt_range _, trivial⟩
  | .nil, _, _ | .null, _, _ | .tru, _, _ | .fls, _, _ | .double _, _, _ => ⟨trivial, trivial⟩
  | .float _, h, _ | .exbin _ _, h, _ | .nan, h, _ | .inf, h, _ => h.elim
theorem survivesL_wf (E : Env) : ∀ (vs : List Val) (i : Nat), SurvivesL E vs →
    (elems i (dataL E vs)).length < 2 ^ 31 → WFL (dataL E vs) ∧ ReadableL E (dataL E vs)
  | [], _, _, _ => ⟨trivial, trivial⟩
  | v :: vs, i, h, hl => by
    simp [dataL, elems] at hl
    obtain ⟨h1, h2⟩ := survives_wf E v h.1 (by omega)
    obtain ⟨h3, h4⟩ := survivesL_wf E vs (i + 1) h.2 (by omega)
    exact ⟨⟨h1, h3⟩, h2, h4⟩
theorem survivesM_wf (E : Env) (ku : Bool) : ∀ vs : List (Bytes × Val), SurvivesM E ku vs →
    (members (dataM E ku vs)).length < 2 ^ 31 → WFM (dataM E ku vs) ∧ ReadableM E (dataM E ku vs)
  | [], _, _ => ⟨trivial, trivial⟩
  | (k, v) :: vs, h, hl => by
    simp [dataM, members] at hl
    obtain ⟨h1, h2⟩ := survives_wf E v h.2.1 (by omega)
    obtain ⟨h3, h4⟩ := survivesM_wf E ku vs h.2.2 (by omega)
    exact ⟨⟨h.1, h1, h3⟩, h2, h4⟩
end

theorem sameM_keys (E : Env) (ku : Bool) : ∀ vs ws : List (Bytes × Val), SameM E ku vs ws →
    ws.map Prod.fst = (unescKeys E ku vs).map Prod.fst
  | [], ws, h => by have h : ws = [] := h; subst h; simp [unescKeys]
  | (k, v) :: vs, ws, h => by
    obtain ⟨w, ws, rfl, _, h2⟩ := h
    have := sameM_keys E ku vs ws h2
    simp only [List.map_cons, this]
    cases ku <;> simp [unescKeys]

mutual
theorem same_of_denotes (E : Env) : ∀ v w : Val, Survives E v → Denotes E (data E v) w → Same E v w
  | .arr xs, w, h, hd => by
    obtain ⟨vs, rfl, hv⟩ := hd
    exact ⟨vs, rfl, sameL_of_denotes E xs vs h.2 hv⟩
  | .obj ku kvs, w, h, hd => by
    obtain ⟨vs, rfl, hv⟩ := hd
    have hs := sameM_of_denotes E ku kvs vs h.2.2 hv
    refine ⟨vs, ?_, hs⟩
    rw [Assoc.lastWins_distinct]
    unfold Assoc.Distinct
    rw [sameM_keys E ku kvs vs hs]
    exact h.2.1
  | .bin ext b, w, h, hd => by
    rcases h with ⟨rfl, h⟩ | ⟨rfl, h⟩
    · simp only [data, if_true] at hd
      have hd : w = _ := hd
      rw [hd, List.take_of_length_le (by omega)]; rfl
    · simp only [data] at hd
      have hd : w = .bin 19 (b.take 16) := hd
      rw [hd, List.take_of_length_le (by omega)]; rfl
  | .int ext c, w, h, hd => by
    simp only [data] at hd
    show w = _
    by_cases he : ext = 17
    · rw [if_pos he] at hd
      rw [if_pos he]
      exact hd
    · rw [if_neg he] at hd ⊢
      by_cases h2 : (-2 ^ 31 ≤ c.toInt ∧ c.toInt < 2 ^ 31)
      · rw [if_pos h2] at hd
        obtain ⟨c', rfl, hc⟩ := hd
        rw [BitVec.eq_of_toInt_eq hc]
      · rw [if_neg h2] at hd
        obtain ⟨c', rfl, hc⟩ := hd
        rw [BitVec.eq_of_toInt_eq hc]
  | .dateTime c, w, _, hd => by
    have hd : w = _ := hd
    rw [BitVec.ofInt_toInt] at hd
    exact hd
  | .tru, w, _, hd => by simpa [data, Denotes, Same] using hd
  | .fls, w, _, hd => by simpa [data, Denotes, Same] using hd
  | .nil, _, _, h | .null, _, _, h | .double _, _, _, h | .str _, _, _, h | .raw _, _, _, h => h
  | .float _, _, h, _ | .exbin _ _, _, h, _ | .nan, _, h, _ | .inf, _, h, _ => h.elim
theorem sameL_of_denotes (E : Env) : ∀ vs ws : List Val, SurvivesL E vs → DenotesL E (dataL E vs) ws →
    SameL E vs ws
  | [], _, _, h => h
  | v :: vs, _, h, hd => by
    obtain ⟨w, ws, rfl, h1, h2⟩ := hd
    exact ⟨w, ws, rfl, same_of_denotes E v w h.1 h1, sameL_of_denotes E vs ws h.2 h2⟩
theorem sameM_of_denotes (E : Env) (ku : Bool) : ∀ vs ws : List (Bytes × Val), SurvivesM E ku vs →
    DenotesM E (dataM E ku vs) ws → SameM E ku vs ws
  | [], _, _, h => h
  | (k, v) :: vs, _, h, hd => by
    obtain ⟨w, ws, rfl, h1, h2⟩ := hd
    exact ⟨w, ws, rfl, same_of_denotes E v w h.2.1 h1, sameM_of_denotes E ku vs ws h.2.2 h2⟩
end

end Dxs.Bson
