import Verif.Bson.Wire
import Verif.Props.Again
import Verif.MsgPack.Wire
import Verif.EnvEx

/-! # C136: exactly what the BSON decoder accepts, and as what

`NewValueFromBson` (bson_parse.go:257-270) against the grammar of Bson/Wire.lean, in both directions. -/

namespace Dxs.Bson
open Spec
variable {E : Env} {hid : Bytes}

/-! ## Fixed pieces -/

theorem sliceTo_iff {n : Nat} {u d : Bytes} : sliceTo hid n u = .ok d ↔ d.length = n ∧ ∃ q, u ++ hid = d ++ q := by
  unfold sliceTo
  constructor
  · intro h
    split at h
    · cases h; exact ⟨by rw [List.length_take]; omega, _, (List.take_append_drop _ _).symm⟩
    · cases h
  · rintro ⟨rfl, q, e⟩
    rw [e, if_pos (by simp), List.take_left]

theorem u8n {x : UInt8} {n : Nat} (h : n % 256 = x.toNat) : UInt8.ofNat n = x := by
  rw [← UInt8.toNat_inj]; simpa using h

theorem uint32_iff {u : Bytes} {n : Nat} : uint32 hid u = .ok n ↔ n < 2 ^ 32 ∧ ∃ q, u ++ hid = le 4 n ++ q := by
  constructor
  · intro h
    unfold uint32 at h
    obtain ⟨d, hd, h⟩ := Res.bind_eq_ok.1 h
    obtain ⟨hl, q, e⟩ := sliceTo_iff.1 hd
    rcases d with _ | ⟨x, _ | ⟨y, _ | ⟨z, _ | ⟨w, _ | ⟨_, d⟩⟩⟩⟩⟩ <;> try (simp at hl; done)
    cases h
    have := x.toNat_lt; have := y.toNat_lt; have := z.toNat_lt; have := w.toNat_lt
    rw [be32_eq]
    refine ⟨by omega, q, ?_⟩
    rw [e]
    simp only [le]
    rw [u8n (x := x) (by omega), u8n (x := y) (by omega), u8n (x := z) (by omega), u8n (x := w) (by omega)]
  · rintro ⟨hn, q, e⟩
    unfold uint32
    rw [sliceTo_iff.2 ⟨le_length 4 n, q, e⟩]
    have := be4_list n hn _ _ _ _ rfl
    simp only [Res.bind_ok, le, this]

theorem uint64_iff {u : Bytes} {n : Nat} : uint64 hid u = .ok n ↔ n < 2 ^ 64 ∧ ∃ q, u ++ hid = le 8 n ++ q := by
  constructor
  · intro h
    unfold uint64 at h
    obtain ⟨d, hd, h⟩ := Res.bind_eq_ok.1 h
    obtain ⟨hl, q, e⟩ := sliceTo_iff.1 hd
    rcases d with _ | ⟨x, _ | ⟨y, _ | ⟨z, _ | ⟨w, _ | ⟨x', _ | ⟨y', _ | ⟨z', _ | ⟨w', _ | ⟨_, d⟩⟩⟩⟩⟩⟩⟩⟩⟩ <;> try (simp at hl; done)
    cases h
    have := x.toNat_lt; have := y.toNat_lt; have := z.toNat_lt; have := w.toNat_lt
    have := x'.toNat_lt; have := y'.toNat_lt; have := z'.toNat_lt; have := w'.toNat_lt
    rw [be64_eq]
    refine ⟨by omega, q, ?_⟩
    rw [e]
    simp only [le]
    rw [u8n (x := x) (by omega), u8n (x := y) (by omega), u8n (x := z) (by omega), u8n (x := w) (by omega),
      u8n (x := x') (by omega), u8n (x := y') (by omega), u8n (x := z') (by omega), u8n (x := w') (by omega)]
  · rintro ⟨hn, q, e⟩
    unfold uint64
    rw [sliceTo_iff.2 ⟨le_length 8 n, q, e⟩]
    have := be8_list n hn _ _ _ _ _ _ _ _ rfl
    simp only [Res.bind_ok, le, this]

theorem sliceFrom_iff {n : Nat} {u t : Bytes} : MsgPack.sliceFrom n u = .ok t ↔ ∃ a, a.length = n ∧ u = a ++ t := by
  unfold MsgPack.sliceFrom
  constructor
  · intro h
    split at h
    · cases h; exact ⟨u.take n, by rw [List.length_take]; omega, by rw [List.take_append_drop]⟩
    · cases h
  · rintro ⟨a, rfl, rfl⟩
    rw [if_pos (by simp), List.drop_left]

theorem binary_iff {u : Bytes} {c : Nat} {v : Val} : parseBinary hid u = .ok (c, v) ↔ Simple E hid 5 u c v := by
  constructor
  · intro h
    unfold parseBinary at h
    replace h := Res.bind_eq_ok.1 h
    obtain ⟨n, h1, h⟩ := h
    replace h := Res.bind_eq_ok.1 h
    obtain ⟨b, h2, h⟩ := h
    replace h := Res.bind_eq_ok.1 h
    obtain ⟨s, h3, h⟩ := h
    obtain ⟨hn, q, e⟩ := uint32_iff.1 h1
    obtain ⟨a, ha, rfl⟩ := sliceFrom_iff.1 h2
    rw [List.append_assoc] at e
    obtain ⟨rfl, -⟩ := List.append_inj e (by rw [ha, le_length])
    cases b with
    | nil => simp [at_] at h3
    | cons s' p =>
      cases h3
      split at h
      · rename_i hs
        replace hs := eq_of_beq hs
        subst hs
        replace h := Res.bind_eq_ok.1 h
        obtain ⟨b2, h4, h⟩ := h
        replace h := Res.bind_eq_ok.1 h
        obtain ⟨m, h5, h⟩ := h
        replace h := Res.bind_eq_ok.1 h
        obtain ⟨b3, h6, h⟩ := h
        obtain ⟨x, hx, e2⟩ := sliceFrom_iff.1 h4
        obtain ⟨y, hy, rfl⟩ := sliceFrom_iff.1 h6
        obtain ⟨hm, q2, e3⟩ := uint32_iff.1 h5
        cases x with
        | nil => simp at hx
        | cons x0 x =>
          simp only [List.cons_append, List.cons.injEq] at e2
          obtain ⟨rfl, rfl⟩ := e2
          rw [show y = y.take 4 ++ y.drop 4 from (List.take_append_drop _ _).symm, List.append_assoc, List.append_assoc] at e3
          obtain ⟨e4, -⟩ := List.append_inj e3 (by rw [List.length_take, le_length]; omega)
          split at h
          · cases h
          · rename_i hle
            replace h := Res.bind_eq_ok.1 h
            obtain ⟨d, h7, h⟩ := h
            cases h
            obtain ⟨rfl, q3, e5⟩ := sliceTo_iff.1 h7
            have e6 : b3 = d ++ b3.drop d.length := by
              have := congrArg (List.take d.length) e5
              rw [List.take_append_of_le_length (by omega), List.take_left] at this
              rw [← this, List.length_take, Nat.min_eq_left (by omega), List.take_append_drop]
            have := Simple.bin2 (E := E) (hid := hid) n x (y.drop 4) d (b3.drop d.length) hn (by simpa using hx) (by rw [List.length_drop]; omega) hm
            rw [← e6, ← e4] at this
            rw [show y = y.take 4 ++ y.drop 4 from (List.take_append_drop _ _).symm, List.append_assoc]
            exact this
      · rename_i hs
        replace h := Res.bind_eq_ok.1 h
        obtain ⟨d, h4, h⟩ := h
        cases h
        obtain ⟨hl, q2, e2⟩ := sliceTo_iff.1 h4
        cases d with
        | nil => simp at hl
        | cons d0 d =>
          simp only [List.cons_append, List.cons.injEq] at e2
          obtain ⟨rfl, e2⟩ := e2
          have hl : d.length = n := by simpa using hl
          subst hl
          exact .bin s d p q2 (by simpa using hs) hn e2
  · intro h
    generalize ht : (5 : UInt8) = t at h
    cases h with
    | bin s d p q h1 h2 h3 =>
      unfold parseBinary
      rw [uint32_iff.2 ⟨h2, (s :: p) ++ hid, by simp⟩]
      simp only [Res.bind_ok]
      rw [sliceFrom_iff.2 ⟨le 4 d.length, le_length _ _, rfl⟩]
      simp only [Res.bind_ok, at_, List.getElem?_cons_zero]
      rw [if_neg (by simpa using h1), (sliceTo_iff (n := d.length + 1) (u := s :: p) (d := s :: d)).2 ⟨rfl, q, by simp [h3]⟩]
      rfl
    | bin2 n x y d q h1 h2 h3 h4 =>
      unfold parseBinary
      rw [uint32_iff.2 ⟨h1, _, List.append_assoc _ _ _⟩]
      simp only [Res.bind_ok]
      rw [sliceFrom_iff.2 ⟨le 4 n, le_length _ _, rfl⟩]
      simp only [Res.bind_ok, at_, List.getElem?_cons_zero]
      rw [if_pos (by decide), (sliceFrom_iff (n := 5) (u := 2 :: (x ++ (le 4 d.length ++ (y ++ (d ++ q))))) (t := le 4 d.length ++ (y ++ (d ++ q)))).2 ⟨2 :: x, by simp [h2], rfl⟩]
      simp only [Res.bind_ok]
      rw [uint32_iff.2 ⟨h4, _, List.append_assoc _ _ _⟩]
      simp only [Res.bind_ok]
      rw [(sliceFrom_iff (n := 9) (t := d ++ q)).2 ⟨le 4 d.length ++ y, by simp [h3], by simp⟩]
      simp only [Res.bind_ok]
      rw [if_neg (by simp), sliceTo_iff.2 ⟨rfl, q ++ hid, by simp⟩]
      rfl
    | none _ _ h => subst ht; simp at h
    | _ => simp at ht

theorem simple_iff {ty : UInt8} {u : Bytes} {c : Nat} {v : Val} : parseSimple E hid ty u = .ok (c, v) ↔ Simple E hid ty u c v := by
  constructor
  · have w4 : ∀ (f : Nat → Nat × Val), (∀ w q, w < 2 ^ 32 → u ++ hid = le 4 w ++ q → Simple E hid ty u (f w).1 (f w).2) → ∀ x, (uint32 hid u >>= fun w => .ok (f w)) = .ok x → Simple E hid ty u x.1 x.2 := by
      intro f hf x h
      obtain ⟨w, h1, h⟩ := Res.bind_eq_ok.1 h
      cases h
      obtain ⟨hw, q, e⟩ := uint32_iff.1 h1
      exact hf w q hw e
    have w8 : ∀ (f : Nat → Nat × Val), (∀ w q, w < 2 ^ 64 → u ++ hid = le 8 w ++ q → Simple E hid ty u (f w).1 (f w).2) → ∀ x, (uint64 hid u >>= fun w => .ok (f w)) = .ok x → Simple E hid ty u x.1 x.2 := by
      intro f hf x h
      obtain ⟨w, h1, h⟩ := Res.bind_eq_ok.1 h
      cases h
      obtain ⟨hw, q, e⟩ := uint64_iff.1 h1
      exact hf w q hw e
    have ws : ∀ (n : Nat) (f : Bytes → Nat × Val), (∀ d q, d.length = n → u ++ hid = d ++ q → Simple E hid ty u (f d).1 (f d).2) → ∀ x, (sliceTo hid n u >>= fun w => .ok (f w)) = .ok x → Simple E hid ty u x.1 x.2 := by
      intro n f hf x h
      obtain ⟨w, h1, h⟩ := Res.bind_eq_ok.1 h
      cases h
      obtain ⟨hw, q, e⟩ := sliceTo_iff.1 h1
      exact hf w q hw e
    have key : ∀ x, parseSimple E hid ty u = .ok x → Simple E hid ty u x.1 x.2 := by
      unfold parseSimple
      refine MsgPack.ite_ok2 (P := fun x : Nat × Val => Simple E hid ty u x.1 x.2) (fun h => w8 _ ?_) (fun n1 => MsgPack.ite_ok2 (fun h => ?_) (fun n2 => MsgPack.ite_ok2 (fun h => ?_) (fun n3 => MsgPack.ite_ok2 (fun h => ws 12 _ ?_) (fun n4 => MsgPack.ite_ok2 (fun h => ?_)
        (fun n5 => MsgPack.ite_ok2 (fun h => w8 _ ?_) (fun n6 => MsgPack.ite_ok2 (fun h => w4 _ ?_) (fun n7 => MsgPack.ite_ok2 (fun h => w8 _ ?_) (fun n8 => MsgPack.ite_ok2 (fun h => w8 _ ?_) (fun n9 => MsgPack.ite_ok2 (fun h => ws 16 _ ?_) (fun n10 => ?_))))))))))
      · intro w q hw e; rw [eq_of_beq h]; exact .double w u q hw e
      · rw [eq_of_beq h]
        intro x h
        replace h := Res.bind_eq_ok.1 h
        obtain ⟨n, h1, h⟩ := h
        obtain ⟨hn, q, e⟩ := uint32_iff.1 h1
        dsimp only at h
        split at h
        · cases h
        · rename_i h0
          replace h := Res.bind_eq_ok.1 h
          obtain ⟨s, h2, h⟩ := h
          cases h
          unfold slice at h2
          split at h2
          · rename_i hle
            cases h2
            rw [e] at hle ⊢
            have hq : n - 1 ≤ q.length := by simp only [List.length_append, le_length] at hle; omega
            have hs : ((le 4 n ++ q).take (4 + n - 1)).drop 4 = q.take (n - 1) := by
              rw [List.drop_take, List.drop_left' (le_length 4 n)]
              congr 1; omega
            rw [hs]
            have hl : (q.take (n - 1)).length + 1 = n := by rw [List.length_take]; omega
            have := Simple.str (E := E) (hid := hid) (q.take (n - 1)) u (q.drop (n - 1)) (by omega) (by rw [hl, List.take_append_drop]; exact e)
            rw [hl] at this
            exact this
          · cases h2
      · rw [eq_of_beq h]; rintro ⟨c, v⟩ h; exact binary_iff.1 h
      · intro w q hw e; rw [eq_of_beq h]; exact .oid w u q hw e
      · rw [eq_of_beq h]
        intro x h
        obtain ⟨y, h1, h⟩ := Res.bind_eq_ok.1 h
        cases h
        cases u with
        | nil => simp [at_] at h1
        | cons y' u =>
          simp only [at_, List.getElem?_cons_zero, Res.ok.injEq] at h1
          subst h1
          have := Simple.bool (E := E) (hid := hid) y' u
          simpa using this
      · intro w q hw e; rw [eq_of_beq h]; exact .date w u q hw e
      · intro w q hw e; rw [eq_of_beq h]; exact .int32 w u q hw e
      · intro w q hw e; rw [eq_of_beq h]; exact .stamp w u q hw e
      · intro w q hw e; rw [eq_of_beq h]; exact .int64 w u q hw e
      · intro w q hw e; rw [eq_of_beq h]; exact .dec w u q hw e
      · intro x h
        cases h
        simp only [beq_iff_eq] at n1 n2 n3 n4 n5 n6 n7 n8 n9 n10
        exact .none _ _ (by simp [n1, n2, n3, n4, n5, n6, n7, n8, n9, n10])
    exact key _
  · intro h
    cases h with
    | double w u q hw e => simp [parseSimple, uint64_iff.2 ⟨hw, q, e⟩]
    | str s u q hs e =>
      have hsl : slice hid 4 (4 + (s.length + 1) - 1) u = .ok s := by
        unfold slice
        rw [e, if_pos (by simp)]
        have h1 : 4 + (s.length + 1) - 1 = (le 4 (s.length + 1) ++ s).length := by simp
        rw [← List.append_assoc, h1, List.take_left, List.drop_left' (le_length _ _)]
      simp only [parseSimple]
      rw [if_neg (by decide), if_pos (by decide), uint32_iff.2 ⟨hs, s ++ q, e⟩]
      simp only [Res.bind_ok, Nat.add_eq_zero_iff, Nat.one_ne_zero, and_false, if_false, hsl]
    | bin s d p q h1 h2 h3 => exact binary_iff (E := E) |>.2 (.bin s d p q h1 h2 h3)
    | bin2 n x y d q h1 h2 h3 h4 => exact binary_iff (E := E) |>.2 (.bin2 n x y d q h1 h2 h3 h4)
    | oid d u q h e => simp [parseSimple, sliceTo_iff.2 ⟨h, q, e⟩]
    | bool x q => simp [parseSimple, at_]
    | date w u q hw e => simp [parseSimple, uint64_iff.2 ⟨hw, q, e⟩]
    | int32 w u q hw e => simp [parseSimple, uint32_iff.2 ⟨hw, q, e⟩]
    | stamp w u q hw e => simp [parseSimple, uint64_iff.2 ⟨hw, q, e⟩]
    | int64 w u q hw e => simp [parseSimple, uint64_iff.2 ⟨hw, q, e⟩]
    | dec d u q h e => simp [parseSimple, sliceTo_iff.2 ⟨h, q, e⟩]
    | none ty u h =>
      simp only [List.mem_cons, List.not_mem_nil, or_false, not_or] at h
      simp [parseSimple, h]

/-! ## One element -/

theorem vt_obj {v : Val} (h : v.vt = .object) : ∃ ku kvs, v = .obj ku kvs := by
  cases v <;> simp_all [Val.vt]
theorem vt_arr {v : Val} (h : v.vt = .array) : ∃ xs, v = .arr xs := by
  cases v <;> simp_all [Val.vt]

theorem start_none (ty : UInt8) : start ty none = blank (targetType ty) := by
  unfold start targetType
  by_cases h3 : ty = 3
  · subst h3; rfl
  · by_cases h4 : ty = 4
    · subst h4; rfl
    · simp [h3, h4, blank]

theorem start_some {ty : UInt8} (v : Val) (ht : ty = 3 ∨ ty = 4) : start ty (some v) = settle (targetType ty) v := by
  unfold start targetType settle
  by_cases h3 : ty = 3
  · subst h3
    simp only [if_true, show ((3 : UInt8) == 4) = false from rfl, show ((3 : UInt8) == 3) = true from rfl, Bool.false_eq_true, if_false]
    split
    · rename_i h; cases h; rfl
    · rename_i h
      rw [if_neg]
      · rfl
      · intro hv; obtain ⟨ku, kvs, rfl⟩ := vt_obj hv; exact h _ _ rfl
  · by_cases h4 : ty = 4
    · subst h4
      simp only [if_true, show ((4 : UInt8) = 3) = False from by decide, show ((4 : UInt8) == 4) = true from rfl, if_false]
      split
      · rename_i h; cases h; rfl
      · rename_i h
        rw [if_neg]
        · rfl
        · intro hv; obtain ⟨xs, rfl⟩ := vt_arr hv; exact h _ rfl
    · rcases ht with h | h
      · exact absurd h h3
      · exact absurd h h4

theorem start_other {ty : UInt8} (o : Option Val) (h3 : ty ≠ 3) (h4 : ty ≠ 4) : start ty o = .null := by
  simp [start, h3, h4]

theorem parseElem_start (f : Nat) (ty : UInt8) (u : Bytes) (v : Val) : parseElem E hid f ty u (settle (targetType ty) v) = parseElem E hid f ty u (start ty (some v)) := by
  by_cases h3 : ty = 3
  · rw [start_some v (.inl h3)]
  · by_cases h4 : ty = 4
    · rw [start_some v (.inr h4)]
    · cases f with
      | zero => rfl
      | succ f => simp [parseElem, h3, h4]

theorem start_given {ty : UInt8} {o : Option Val} (h : ∀ v, o = some v → Given E v) : Given E (start ty o) := by
  cases o with
  | none => rw [start_none]; exact blank_given _
  | some v =>
    by_cases ht : ty = 3 ∨ ty = 4
    · rw [start_some v ht]; exact settle_given _ (h v rfl)
    · rw [start_other _ (fun h => ht (.inl h)) (fun h => ht (.inr h))]; trivial

theorem member_findKey (kvs : List (Bytes × Val)) (k : Bytes) : member E kvs k = (findKey E kvs k).bind (fun i => kvs[i]?.map Prod.snd) := by
  unfold member findKey
  induction kvs with
  | nil => rfl
  | cons kv kvs ih =>
    rw [List.find?_cons, List.findIdx?_cons]
    cases h : E.keyMatch kv.1 k with
    | true => simp
    | false =>
      simp only [Bool.false_eq_true, if_false, ih]
      cases List.findIdx? (fun kv => E.keyMatch kv.1 k) kvs <;> simp

theorem member_given {kvs : List (Bytes × Val)} {k : Bytes} (h : GivenM E kvs) : ∀ v, member E kvs k = some v → Given E v := by
  intro v hv
  unfold member at hv
  obtain ⟨kv, h1, rfl⟩ := Option.map_eq_some_iff.1 hv
  exact (givenM_all.1 h kv (List.mem_of_find?_eq_some h1)).2

theorem put_given {kvs : List (Bytes × Val)} {ku : Bool} {k : Bytes} {w : Val} (h : Given E (.obj ku kvs)) (hk : (0 : UInt8) ∉ k) (hw : Given E w) : Given E (.obj true (Assoc.put E.keyMatch kvs k w)) := by
  obtain ⟨-, k2, k3⟩ := h
  rw [Assoc.put_findIdx]
  split
  · exact ⟨.inl rfl, modify_distinct k2, modify_given k3 hw⟩
  · rename_i hf; exact ⟨.inl rfl, snoc_distinct k2 hf, snoc_given k3 hk hw⟩

theorem slot_given {xs : List Val} {i : Int} (h : GivenL E xs) : ∀ v, slot xs i = some v → Given E v := by
  intro v hv
  unfold slot at hv
  split at hv
  · exact givenL_all.1 h v (List.mem_of_getElem? hv)
  · cases hv

theorem store_given {xs : List Val} {i : Int} {w : Val} (h : GivenL E xs) (hw : Given E w) : GivenL E (store xs i w) := by
  unfold store
  rw [givenL_all] at h ⊢
  split
  · intro x hx
    rcases List.mem_or_eq_of_mem_set hx with h1 | h1
    · exact h x h1
    · rw [h1]; exact hw
  · intro x hx
    rcases List.mem_append.1 hx with h1 | h1
    · exact h x h1
    · rw [List.mem_singleton.1 h1]; exact hw

/-- Where the next element is. -/
theorem element_at {b : Bytes} {pi k : Nat} {ty : UInt8} (h1 : at_ b pi = .ok ty) (h2 : (b.drop (pi + 1)).idxOf? 0 = some k) :
    ∃ n u, b.drop pi = ty :: (n ++ 0 :: u) ∧ (0 : UInt8) ∉ n := by
  refine ⟨(b.drop (pi + 1)).take k, (b.drop (pi + 1)).drop (k + 1), ?_, key_no_zero h2⟩
  have hlt := at_lt h1
  have h3 := idxOf_lt h2
  unfold List.idxOf? at h2
  rw [List.findIdx?_eq_some_iff_getElem] at h2
  obtain ⟨_, h4, -⟩ := h2
  have ht : b[pi] = ty := by
    unfold at_ at h1
    rw [List.getElem?_eq_getElem hlt] at h1
    exact Res.ok.inj h1
  rw [List.drop_eq_getElem_cons hlt, ht]
  congr 1
  conv => lhs; rw [← List.take_append_drop k (b.drop (pi + 1))]
  congr 1
  rw [List.drop_eq_getElem_cons h3, eq_of_beq h4]

theorem element_facts {b k u : Bytes} {pi : Nat} {ty : UInt8} (h : b.drop pi = ty :: (k ++ 0 :: u)) (hk : (0 : UInt8) ∉ k) :
    at_ b pi = .ok ty ∧ (b.drop (pi + 1)).idxOf? 0 = some k.length ∧ (b.drop (pi + 1)).take k.length = k ∧ b.drop (pi + 1 + k.length + 1) = u := by
  have h1 : b.drop (pi + 1) = k ++ 0 :: u := drop_after b [ty] _ pi 1 h rfl
  refine ⟨at_drop b pi ty _ h, by rw [h1]; exact idxOf_key k u hk, by rw [h1, List.take_left], ?_⟩
  have h2 : b.drop (pi + 1 + k.length) = 0 :: u := drop_after b k _ (pi + 1) _ h1 rfl
  exact drop_after b [0] _ (pi + 1 + k.length) 1 h2 rfl

theorem ended {b u : Bytes} {pi p c m docLen : Nat} (h : b.drop p = u) (hp : pi < p) (hd : pi < docLen) (hm : m = p - pi) :
    (p + c = docLen - 1 ∧ b[p + c]? = some 0) ↔ (docLen - pi = m + c + 1 ∧ (u.drop c).head? = some 0) := by
  rw [← h, List.drop_drop, List.head?_drop]
  constructor
  · rintro ⟨h1, h2⟩; exact ⟨by omega, h2⟩
  · rintro ⟨h1, h2⟩; exact ⟨by omega, h2⟩

theorem docLoop_step {f : Nat} {b k u : Bytes} {docLen pi : Nat} {ku : Bool} {kvs : List (Bytes × Val)} {ty : UInt8} (hku : ku = true ∨ kvs = []) (hd : pi < docLen)
    (h : b.drop pi = ty :: (k ++ 0 :: u)) (hk : (0 : UInt8) ∉ k) :
    docLoop E hid (f + 1) b docLen pi ku kvs = parseElem E hid f ty u (start ty (member E kvs k)) >>= fun r =>
      if docLen - pi = k.length + 2 + r.1 + 1 ∧ (u.drop r.1).head? = some 0 then .ok (.obj true (Assoc.put E.keyMatch kvs k r.2))
      else docLoop E hid f b docLen (pi + (k.length + 2 + r.1)) true (Assoc.put E.keyMatch kvs k r.2) := by
  obtain ⟨h1, h2, h3, h4⟩ := element_facts h hk
  rw [docLoop, if_pos hd, h1, Res.bind_ok]
  dsimp only
  rw [h2]
  dsimp only
  rw [h3, indexByName_acc hku, h4]
  have hend : ∀ c, (pi + (k.length + 2 + c) = docLen - 1 ∧ b[pi + (k.length + 2 + c)]? = some 0) ↔ (docLen - pi = k.length + 2 + c + 1 ∧ (u.drop c).head? = some 0) :=
    fun c => by rw [← ended (pi := pi) (docLen := docLen) (m := k.length + 2) (c := c) h4 (by omega) hd (by omega), show pi + 1 + k.length + 1 + c = pi + (k.length + 2 + c) by omega]
  have hpi : ∀ c, pi + 1 + k.length + 1 + c = pi + (k.length + 2 + c) := fun c => by omega
  rw [member_findKey]
  simp only [Assoc.put_findIdx]
  change (match (findKey E kvs k, true, kvs) with | (some i, ku', kvs') => _ | (none, ku', kvs') => _) = _
  cases hf : findKey E kvs k with
  | none =>
    have hf' := hf
    unfold findKey at hf'
    rw [hf']
    dsimp only [Option.bind_none]
    rw [start_none]
    congr 1
    funext r
    obtain ⟨c, w⟩ := r
    simp only [hpi, hend]
  | some i =>
    have hf' := hf
    unfold findKey at hf'
    rw [hf']
    have hlt : i < kvs.length := by
      rw [List.findIdx?_eq_some_iff_getElem] at hf'
      exact hf'.1
    dsimp only [Option.bind_some]
    rw [List.getElem?_eq_getElem hlt]
    dsimp only [Option.map_some, Option.getD_some]
    rw [parseElem_start]
    congr 1
    funext r
    obtain ⟨c, w⟩ := r
    simp only [hpi, hend]

theorem arrLoop_step {f : Nat} {b k u : Bytes} {docLen pi : Nat} {xs : List Val} {ty : UInt8} {i : BitVec 64} (hd : pi < docLen)
    (h : b.drop pi = ty :: (k ++ 0 :: u)) (hk : (0 : UInt8) ∉ k) (hi : E.strToInt k = some i) (hi1 : i.toInt ≠ -1) :
    arrLoop E hid (f + 1) b docLen pi xs = parseElem E hid f ty u (start ty (slot xs i.toInt)) >>= fun r =>
      if docLen - pi = k.length + 2 + r.1 + 1 ∧ (u.drop r.1).head? = some 0 then .ok (.arr (store xs i.toInt r.2))
      else arrLoop E hid f b docLen (pi + (k.length + 2 + r.1)) (store xs i.toInt r.2) := by
  obtain ⟨h1, h2, h3, h4⟩ := element_facts h hk
  rw [arrLoop, if_pos hd, h1, Res.bind_ok]
  dsimp only
  rw [h2]
  dsimp only
  rw [h3, hi, h4]
  dsimp only [Option.map_some, Option.getD_some]
  rw [if_neg hi1]
  have hend : ∀ c, (pi + (k.length + 2 + c) = docLen - 1 ∧ b[pi + (k.length + 2 + c)]? = some 0) ↔ (docLen - pi = k.length + 2 + c + 1 ∧ (u.drop c).head? = some 0) :=
    fun c => by rw [← ended (pi := pi) (docLen := docLen) (m := k.length + 2) (c := c) h4 (by omega) hd (by omega), show pi + 1 + k.length + 1 + c = pi + (k.length + 2 + c) by omega]
  have hpi : ∀ c, pi + 1 + k.length + 1 + c = pi + (k.length + 2 + c) := fun c => by omega
  unfold slot store
  by_cases hb : 0 ≤ i.toInt ∧ i.toInt.toNat < xs.length
  · simp only [if_pos hb, if_pos hb.1]
    rw [List.getElem?_eq_getElem hb.2]
    dsimp only [Option.getD_some]
    rw [parseElem_start]
    congr 1
    funext r
    obtain ⟨c, w⟩ := r
    simp only [hpi, hend]
  · have hs : (if 0 ≤ i.toInt then xs[i.toInt.toNat]? else none) = none := by
      split
      · rename_i h0; exact List.getElem?_eq_none (by have := fun h => hb ⟨h0, h⟩; omega)
      · rfl
    simp only [if_neg hb, hs]
    rw [start_none]
    congr 1
    funext r
    obtain ⟨c, w⟩ := r
    simp only [hpi, hend]

/-! ## What the grammar gives is read -/

mutual
theorem doc_parse : ∀ {s : Bytes} {ku : Bool} {kvs : List (Bytes × Val)} {n : Nat} {v : Val}, Doc E hid s ku kvs n v → Given E (.obj ku kvs) → ∀ f, 2 * s.length + 2 ≤ f → parseDoc E hid f s ku kvs = .ok (n, v)
  | _, _, _, _, _, .mk n q ku kvs v h1 h2 h3 h4, g, f + 1, hf => by
    have hl : (le 4 n ++ q).length = 4 + q.length := by simp
    have h0 : 0 < q.length := List.length_pos_iff.2 h2
    rw [parseDoc, if_neg (by omega), uint32_iff.2 ⟨h1, q ++ hid, List.append_assoc _ _ _⟩, Res.bind_ok]
    rw [if_neg (by omega), body_parse h4 g (b := le 4 n ++ q) (docLen := n) (pi := 4) (by simp [List.drop_left' (le_length 4 n)]) rfl f (by omega)]
    rfl
theorem body_parse : ∀ {m : Nat} {q : Bytes} {ku : Bool} {kvs : List (Bytes × Val)} {v : Val}, Body E hid m q ku kvs v → Given E (.obj ku kvs) → ∀ {b : Bytes} {docLen pi : Nat}, b.drop pi = q → docLen - pi = m → ∀ f, 2 * (b.length - pi) + 1 ≤ f →
    docLoop E hid f b docLen pi ku kvs = .ok v
  | _, _, _, _, _, .done q ku kvs, g, b, docLen, pi, hq, hm, f + 1, hf => by
    rw [docLoop, if_neg (by omega)]
  | _, _, _, _, _, .last ty k u ku kvs c w h1 h2 h3, g, b, docLen, pi, hq, hm, f + 1, hf => by
    have hl := drop_len _ _ _ hq
    simp only [List.length_cons, List.length_append] at hl
    rw [docLoop_step g.1 (by omega) hq h1, elem_parse h2 (start_given (member_given g.2.2)) f (by omega), Res.bind_ok]
    dsimp only
    rw [if_pos ⟨hm, h3⟩]
  | _, _, _, _, _, .more m ty k u ku kvs c w v h0 h1 h2 h3 h4, g, b, docLen, pi, hq, hm, f + 1, hf => by
    have hl := drop_len _ _ _ hq
    simp only [List.length_cons, List.length_append] at hl
    have hu := (element_facts hq h1).2.2.2
    have he := elem_parse h2 (start_given (member_given g.2.2)) f (by omega)
    have gw : Given E w := ((Bson.given E hid f).2.2.1 _ _ _ _ (start_given (member_given g.2.2)) he)
    rw [docLoop_step g.1 (by omega) hq h1, he, Res.bind_ok]
    dsimp only
    rw [if_neg (by rw [hm]; exact h3)]
    refine body_parse h4 (put_given g h1 gw) ?_ (by omega) f (by omega)
    rw [← hu, List.drop_drop]
    congr 1; omega
theorem elem_parse : ∀ {ty : UInt8} {u : Bytes} {cur : Val} {c : Nat} {v : Val}, Elem E hid ty u cur c v → Given E cur → ∀ f, 2 * u.length + 3 ≤ f → parseElem E hid f ty u cur = .ok (c, v)
  | _, _, _, _, _, .simple ty u cur c v h3 h4 h, g, f + 1, hf => by
    simp only [parseElem, beq_iff_eq, h3, h4, if_false]
    exact simple_iff.2 h
  | _, _, _, _, _, .doc u ku kvs n v h, g, f + 1, hf => by
    simp only [parseElem, show ((3 : UInt8) == 4) = false from rfl, show ((3 : UInt8) == 3) = true from rfl, Bool.false_eq_true, if_false, if_true]
    exact doc_parse h g f (by omega)
  | _, _, _, _, _, .arr u xs n q v h1 h2 h3 h4, g, f + 2, hf => by
    simp only [parseElem, show ((4 : UInt8) == 4) = true from rfl, if_true]
    rw [parseArr, uint32_iff.2 ⟨h1, q, h2⟩, Res.bind_ok]
    rw [if_neg (by omega), items_parse h4 g rfl rfl f (by omega)]
    rfl
theorem items_parse : ∀ {m : Nat} {q : Bytes} {xs : List Val} {v : Val}, Items E hid m q xs v → GivenL E xs → ∀ {b : Bytes} {docLen pi : Nat}, b.drop pi = q → docLen - pi = m → ∀ f, 2 * (b.length - pi) + 1 ≤ f →
    arrLoop E hid f b docLen pi xs = .ok v
  | _, _, _, _, .done q xs, g, b, docLen, pi, hq, hm, f + 1, hf => by
    rw [arrLoop, if_neg (by omega)]
  | _, _, _, _, .last ty k u i xs c w h1 h2 h3 h4 h5, g, b, docLen, pi, hq, hm, f + 1, hf => by
    have hl := drop_len _ _ _ hq
    simp only [List.length_cons, List.length_append] at hl
    rw [arrLoop_step (by omega) hq h1 h2 h3, elem_parse h4 (start_given (slot_given g)) f (by omega), Res.bind_ok]
    dsimp only
    rw [if_pos ⟨hm, h5⟩]
  | _, _, _, _, .more m ty k u i xs c w v h0 h1 h2 h3 h4 h5 h6, g, b, docLen, pi, hq, hm, f + 1, hf => by
    have hl := drop_len _ _ _ hq
    simp only [List.length_cons, List.length_append] at hl
    have hu := (element_facts hq h1).2.2.2
    have he := elem_parse h4 (start_given (slot_given g)) f (by omega)
    have gw : Given E w := ((Bson.given E hid f).2.2.1 _ _ _ _ (start_given (slot_given g)) he)
    rw [arrLoop_step (by omega) hq h1 h2 h3, he, Res.bind_ok]
    dsimp only
    rw [if_neg (by rw [hm]; exact h5)]
    refine items_parse h6 (store_given g gw) ?_ (by omega) f (by omega)
    rw [← hu, List.drop_drop]
    congr 1; omega
end

/-! ## What is read is in the grammar -/

theorem parse_grammar (E : Env) (hid : Bytes) : ∀ f : Nat,
    (∀ b ku kvs n v, Given E (.obj ku kvs) → parseDoc E hid f b ku kvs = .ok (n, v) → Doc E hid b ku kvs n v) ∧
    (∀ b docLen pi ku kvs v, Given E (.obj ku kvs) → docLoop E hid f b docLen pi ku kvs = .ok v → Body E hid (docLen - pi) (b.drop pi) ku kvs v) ∧
    (∀ ty b cur n v, Given E cur → parseElem E hid f ty b cur = .ok (n, v) → Elem E hid ty b cur n v) ∧
    (∀ b docLen pi xs v, GivenL E xs → arrLoop E hid f b docLen pi xs = .ok v → Items E hid (docLen - pi) (b.drop pi) xs v) ∧
    (∀ b xs n v, GivenL E xs → parseArr E hid f b xs = .ok (n, v) → Elem E hid 4 b (.arr xs) n v)
  | 0 => by
    refine ⟨?_, ?_, ?_, ?_, ?_⟩ <;> intros <;> simp_all [parseDoc, docLoop, parseElem, parseArr, arrLoop]
  | f + 1 => by
    obtain ⟨id, idl, ie, ial, ia⟩ := parse_grammar E hid f
    refine ⟨?_, ?_, ?_, ?_, ?_⟩
    · intro b ku kvs n v g h
      rw [parseDoc] at h
      split at h
      · cases h
      rename_i hl
      replace h := Res.bind_eq_ok.1 h
      obtain ⟨m, h1, h⟩ := h
      split at h
      · cases h
      rename_i hle
      replace h := Res.bind_eq_ok.1 h
      obtain ⟨o, ho, h⟩ := h
      cases h
      obtain ⟨hm, q, e⟩ := uint32_iff.1 h1
      have hb := idl _ _ _ _ _ _ g ho
      have e4 : b = le 4 n ++ b.drop 4 := by
        have := congrArg (List.take 4) e
        rw [List.take_append_of_le_length (by omega), List.take_left' (le_length 4 n)] at this
        rw [← this, List.take_append_drop]
      have hlen : (b.drop 4).length = b.length - 4 := List.length_drop
      have := Doc.mk n (b.drop 4) ku kvs v hm (fun h0 => by rw [h0] at hlen; simp at hlen; omega) (by omega) hb
      rw [← e4] at this
      exact this
    · intro b docLen pi ku kvs v g h
      by_cases hd : pi < docLen
      · have h' := h
        rw [docLoop, if_pos hd] at h'
        replace h' := Res.bind_eq_ok.1 h'
        obtain ⟨ty, h1, h'⟩ := h'
        dsimp only at h'
        split at h'
        · cases h'
        rename_i kn hidx
        clear h'
        obtain ⟨k, u, hq, hk⟩ := element_at h1 hidx
        rw [docLoop_step g.1 hd hq hk] at h
        replace h := Res.bind_eq_ok.1 h
        obtain ⟨⟨c, w⟩, hw, h⟩ := h
        have gs : Given E (start ty (member E kvs k)) := start_given (member_given g.2.2)
        have he := ie _ _ _ _ _ gs hw
        have gw : Given E w := (Bson.given E hid f).2.2.1 _ _ _ _ gs hw
        dsimp only at h
        rw [hq]
        split at h
        · rename_i hend
          cases h
          rw [hend.1]
          exact .last ty k u ku kvs c w hk he hend.2
        · rename_i hend
          have hb := idl _ _ _ _ _ _ (put_given g hk gw) h
          have hu := (element_facts hq hk).2.2.2
          have hdr : b.drop (pi + (k.length + 2 + c)) = u.drop c := by rw [← hu, List.drop_drop]; congr 1; omega
          rw [hdr, ← Nat.sub_sub] at hb
          exact .more _ ty k u ku kvs c w v (by omega) hk he hend hb
      · rw [docLoop, if_neg hd] at h
        cases h
        rw [show docLen - pi = 0 by omega]
        exact .done _ _ _
    · intro ty b cur n v g h
      unfold parseElem at h
      split at h
      · rename_i h4
        rw [eq_of_beq h4]
        split at h
        · exact ia _ _ _ _ g h
        · cases h
      · rename_i h4
        split at h
        · rename_i h3
          rw [eq_of_beq h3]
          split at h
          · exact .doc _ _ _ _ _ (id _ _ _ _ _ g h)
          · cases h
        · rename_i h3
          exact .simple _ _ _ _ _ (by simpa using h3) (by simpa using h4) (simple_iff.1 h)
    · intro b docLen pi xs v g h
      by_cases hd : pi < docLen
      · have h' := h
        rw [arrLoop, if_pos hd] at h'
        replace h' := Res.bind_eq_ok.1 h'
        obtain ⟨ty, h1, h'⟩ := h'
        dsimp only at h'
        split at h'
        · cases h'
        rename_i kn hidx
        obtain ⟨k, u, hq, hk⟩ := element_at h1 hidx
        have hkn : kn = k.length := by
          have := (element_facts hq hk).2.1
          rw [hidx] at this
          exact Option.some.inj this
        rw [hkn, (element_facts hq hk).2.2.1] at h'
        split at h'
        · cases h'
        rename_i hidx
        clear h'
        cases hi : E.strToInt k with
        | none => rw [hi] at hidx; simp at hidx
        | some i =>
        rw [hi] at hidx
        have hi1 : i.toInt ≠ -1 := by simpa using hidx
        rw [arrLoop_step hd hq hk hi hi1] at h
        replace h := Res.bind_eq_ok.1 h
        obtain ⟨⟨c, w⟩, hw, h⟩ := h
        have gs : Given E (start ty (slot xs i.toInt)) := start_given (slot_given g)
        have he := ie _ _ _ _ _ gs hw
        have gw : Given E w := (Bson.given E hid f).2.2.1 _ _ _ _ gs hw
        dsimp only at h
        rw [hq]
        split at h
        · rename_i hend
          cases h
          rw [hend.1]
          exact .last ty k u i xs c w hk hi hi1 he hend.2
        · rename_i hend
          have hb := ial _ _ _ _ _ (store_given g gw) h
          have hu := (element_facts hq hk).2.2.2
          have hdr : b.drop (pi + (k.length + 2 + c)) = u.drop c := by rw [← hu, List.drop_drop]; congr 1; omega
          rw [hdr, ← Nat.sub_sub] at hb
          exact .more _ ty k u i xs c w v (by omega) hk hi hi1 he hend hb
      · rw [arrLoop, if_neg hd] at h
        cases h
        rw [show docLen - pi = 0 by omega]
        exact .done _ _
    · intro b xs n v g h
      rw [parseArr] at h
      replace h := Res.bind_eq_ok.1 h
      obtain ⟨m, h1, h⟩ := h
      split at h
      · cases h
      rename_i hle
      replace h := Res.bind_eq_ok.1 h
      obtain ⟨o, ho, h⟩ := h
      cases h
      obtain ⟨hm, q, e⟩ := uint32_iff.1 h1
      exact .arr b xs n q v hm e (by omega) (ial _ _ _ _ _ g ho)

theorem empty_given : Given E (.obj false []) := ⟨.inr rfl, by simp [Assoc.Distinct], trivial⟩

/-- **C136**: the decoder gives `v` exactly when the input is, by the grammar, a document that stands for `v`. -/
theorem C136_exact (E : Env) (hid b : Bytes) (v : Val) : newValueFromBson E hid b = .ok v ↔ ∃ n, Doc E hid b false [] n v := by
  unfold newValueFromBson
  constructor
  · intro h
    obtain ⟨⟨n, w⟩, h1, h2⟩ := Res.bind_eq_ok.1 h
    cases h2
    exact ⟨n, (parse_grammar E hid _).1 _ _ _ _ _ empty_given h1⟩
  · rintro ⟨n, h⟩
    rw [doc_parse h empty_given _ (Nat.le_refl _)]; rfl

/-- The grammar is not ambiguous. -/
theorem C136_one (E : Env) (hid b : Bytes) (n m : Nat) (v w : Val) (h1 : Doc E hid b false [] n v) (h2 : Doc E hid b false [] m w) : n = m ∧ v = w := by
  have e := (doc_parse h1 empty_given _ (Nat.le_refl _)).symm.trans (doc_parse h2 empty_given _ (Nat.le_refl _))
  cases e
  exact ⟨rfl, rfl⟩

/-- Any other input is answered with an error, or with a panic; the decoder does not run for ever. -/
theorem C136_refused (E : Env) (hid b : Bytes) (h : ∀ n v, ¬ Doc E hid b false [] n v) : (∃ e, newValueFromBson E hid b = .err e) ∨ newValueFromBson E hid b = .panic := by
  cases hr : newValueFromBson E hid b with
  | ok v => obtain ⟨n, hd⟩ := (C136_exact E hid b v).1 hr; exact absurd hd (h n v)
  | err e => exact .inl ⟨e, rfl⟩
  | panic => exact .inr rfl
  | loop =>
    exfalso
    unfold newValueFromBson at hr
    rcases Res.bind_eq_loop.1 hr with h1 | ⟨a, -, h1⟩
    · exact (no_loop E hid _).1 _ _ _ (Nat.le_refl _) h1
    · cases h1

/-- The length a document gives does not bound what is read: a document with one string may say that it ends anywhere after its first byte, without a zero byte at its end, and is read whole. -/
theorem C136_overrun (E : Env) (hid k s : Bytes) (n : Nat) (hk : (0 : UInt8) ∉ k) (hs : s.length + 1 < 2 ^ 32) (h4 : 4 < n) (hn : n ≤ k.length + s.length + 11) (hn32 : n < 2 ^ 32) :
    newValueFromBson E hid (le 4 n ++ (2 :: (k ++ 0 :: (le 4 (s.length + 1) ++ (s ++ [0]))))) = .ok (.obj true [(k, .str s)]) := by
  rw [C136_exact]
  refine ⟨n, .mk n _ _ _ _ hn32 (by simp) (by simp; omega) ?_⟩
  have he : Elem E hid 2 (le 4 (s.length + 1) ++ (s ++ [0])) (start 2 (member E [] k)) (4 + (s.length + 1)) (.str s) :=
    .simple _ _ _ _ _ (by decide) (by decide) (.str s _ ([0] ++ hid) hs (by simp))
  refine .more _ 2 k _ false [] _ _ _ (by omega) hk he (by omega) ?_
  rw [show n - 4 - (k.length + 2 + (4 + (s.length + 1))) = 0 by omega]
  exact .done _ _ _

/-- What follows the document is part of the input all the same: a document can be one, by its length, whose string is wholly behind its end, and the value is whatever is there. -/
theorem C136_beyond (E : Env) (hid k : Bytes) (l : Nat) (hk : (0 : UInt8) ∉ k) (hl : l + 1 < 2 ^ 32) (hkl : k.length + 10 < 2 ^ 32) :
    ∃ q : Bytes, q.length + 4 = k.length + 10 ∧ ∀ s : Bytes, s.length = l → newValueFromBson E hid (le 4 (k.length + 10) ++ q ++ (s ++ [0])) = .ok (.obj true [(k, .str s)]) := by
  refine ⟨2 :: (k ++ 0 :: le 4 (l + 1)), by simp, ?_⟩
  rintro s rfl
  have := C136_overrun E hid k s (k.length + 10) hk hl (by omega) (by omega) hkl
  simpa using this

/-- An element of a type the decoder does not know (0x06, 0x0A-0x0F, 0x7F, 0xFF and all others without a case) counts no bytes, and becomes null: its content is taken for further elements. -/
theorem C136_unknown (E : Env) (hid : Bytes) (ty : UInt8) (k q : Bytes) (m : Nat) (v : Val) (ht : ty ∉ [1, 2, 3, 4, 5, 7, 8, 9, 16, 17, 18, 19]) (hk : (0 : UInt8) ∉ k) (hm : k.length + 3 < m)
    (h : Body E hid (m - (k.length + 2)) q true [(k, .null)] v) : Body E hid m (ty :: (k ++ 0 :: q)) false [] v := by
  simp only [List.mem_cons, List.not_mem_nil, or_false, not_or] at ht
  have he : Elem E hid ty q (start ty (member E [] k)) 0 .null := .simple _ _ _ _ _ ht.2.2.1 ht.2.2.2.1 (.none _ _ (by simp [ht]))
  exact .more m ty k q false [] 0 .null v (by omega) hk he (by omega) h

/-! Concrete inputs: a document of length 5 with a string behind its end; the length of the array is partly behind the input. -/
example : newValueFromBson envEx [] [5, 0, 0, 0, 2, 97, 0, 2, 0, 0, 0, 120, 0] = .ok (.obj true [([97], .str [120])]) := by decide +kernel
example : ∃ n, Doc envEx [] [5, 0, 0, 0, 2, 97, 0, 2, 0, 0, 0, 120, 0] false [] n (.obj true [([97], .str [120])]) := (C136_exact _ _ _ _).1 (by decide +kernel)
example : newValueFromBson envEx [0, 0] [12, 0, 0, 0, 4, 97, 0, 2, 0] = .err .badBsonLen := by decide +kernel
example : newValueFromBson envEx [0, 0] [9, 0, 0, 0, 4, 97, 0, 2, 0] = .ok (.obj true [([97], .arr [])]) := by decide +kernel
example : ¬ ∃ n v, Doc envEx [] [9, 0, 0, 0, 4, 97, 0, 2, 0] false [] n v := by
  rintro ⟨n, v, h⟩
  have := (C136_exact envEx [] _ v).2 ⟨n, h⟩
  have hp : newValueFromBson envEx [] [9, 0, 0, 0, 4, 97, 0, 2, 0] = .panic := by decide +kernel
  rw [hp] at this
  cases this

end Dxs.Bson
