import Verif.Bson.Stuck
import Verif.Props.BsonWire

/-! # C58: exactly where the BSON decoder panics

`NewValueFromBson` (bson_parse.go:257-270) against the grammar of Bson/Stuck.lean, in both directions. -/

namespace Dxs.Bson
open Spec
variable {E : Env} {hid : Bytes}

theorem sliceTo_panic {n : Nat} {u : Bytes} : sliceTo hid n u = .panic ↔ u.length + hid.length < n := by
  unfold sliceTo
  rw [List.length_append]
  split
  · constructor
    · intro h; cases h
    · intro h; omega
  · exact ⟨fun _ => by omega, fun _ => rfl⟩

theorem uint32_panic {u : Bytes} : uint32 hid u = .panic ↔ u.length + hid.length < 4 := by
  constructor
  · intro h
    by_cases hl : u.length + hid.length < 4
    · exact hl
    · have e : u ++ hid = (u ++ hid).take 4 ++ (u ++ hid).drop 4 := (List.take_append_drop _ _).symm
      have h4 : ((u ++ hid).take 4).length = 4 := by rw [List.length_take, List.length_append]; omega
      unfold uint32 at h
      rw [sliceTo_iff.2 ⟨h4, _, e⟩, Res.bind_ok] at h
      generalize (u ++ hid).take 4 = d at h h4
      rcases d with _ | ⟨x, _ | ⟨y, _ | ⟨z, _ | ⟨w, _ | ⟨_, d⟩⟩⟩⟩⟩ <;> first | (simp at h4; done) | cases h
  · intro h
    unfold uint32
    rw [sliceTo_panic.2 h]; rfl

theorem uint64_panic {u : Bytes} : uint64 hid u = .panic ↔ u.length + hid.length < 8 := by
  constructor
  · intro h
    by_cases hl : u.length + hid.length < 8
    · exact hl
    · have e : u ++ hid = (u ++ hid).take 8 ++ (u ++ hid).drop 8 := (List.take_append_drop _ _).symm
      have h4 : ((u ++ hid).take 8).length = 8 := by rw [List.length_take, List.length_append]; omega
      unfold uint64 at h
      rw [sliceTo_iff.2 ⟨h4, _, e⟩, Res.bind_ok] at h
      generalize (u ++ hid).take 8 = d at h h4
      rcases d with _ | ⟨x, _ | ⟨y, _ | ⟨z, _ | ⟨w, _ | ⟨x', _ | ⟨y', _ | ⟨z', _ | ⟨w', _ | ⟨_, d⟩⟩⟩⟩⟩⟩⟩⟩⟩ <;> first | (simp at h4; done) | cases h
  · intro h
    unfold uint64
    rw [sliceTo_panic.2 h]; rfl

theorem sliceFrom_panic {n : Nat} {u : Bytes} : MsgPack.sliceFrom n u = .panic ↔ u.length < n := by
  unfold MsgPack.sliceFrom
  split
  · constructor
    · intro h; cases h
    · intro h; omega
  · exact ⟨fun _ => by omega, fun _ => rfl⟩

theorem binary_panic {u : Bytes} : parseBinary hid u = .panic ↔ SimpleStuck hid 5 u := by
  constructor
  · intro h
    by_cases hl : u.length ≤ 4
    · exact .binLen u hl
    unfold parseBinary at h
    replace h := Res.bind_eq_panic.1 h
    rcases h with h | ⟨n, h1, h⟩
    · have := uint32_panic.1 h; omega
    replace h := Res.bind_eq_panic.1 h
    rcases h with h | ⟨b, h2, h⟩
    · have := sliceFrom_panic.1 h; omega
    obtain ⟨hn, q, e⟩ := uint32_iff.1 h1
    obtain ⟨a, ha, rfl⟩ := sliceFrom_iff.1 h2
    rw [List.append_assoc] at e
    obtain ⟨rfl, -⟩ := List.append_inj e (by rw [ha, le_length])
    cases b with
    | nil => simp at hl
    | cons s p =>
      simp only [at_, List.getElem?_cons_zero, Res.bind_ok] at h
      split at h
      · rename_i hs
        rw [eq_of_beq hs] at h ⊢
        by_cases hp : p.length < 13
        · exact .bin2 n p hn hp
        · exfalso
          replace h := Res.bind_eq_panic.1 h
          rcases h with h | ⟨b2, h4, h⟩
          · have := sliceFrom_panic.1 h; simp at this; omega
          obtain ⟨x, hx, e2⟩ := sliceFrom_iff.1 h4
          have hb2 := congrArg List.length e2
          simp only [List.length_cons, List.length_append] at hb2
          replace h := Res.bind_eq_panic.1 h
          rcases h with h | ⟨m, h5, h⟩
          · have := uint32_panic.1 h; omega
          replace h := Res.bind_eq_panic.1 h
          rcases h with h | ⟨b3, h6, h⟩
          · have := sliceFrom_panic.1 h; omega
          split at h
          · cases h
          · replace h := Res.bind_eq_panic.1 h
            rcases h with h | ⟨d, h7, h⟩
            · have := sliceTo_panic.1 h; omega
            · cases h
      · rename_i hs
        replace h := Res.bind_eq_panic.1 h
        rcases h with h | ⟨d, h7, h⟩
        · have := sliceTo_panic.1 h
          exact .bin n s p hn (by simpa using hs) (by simp at this; omega)
        · cases h
  · intro h
    have short : u.length ≤ 4 → parseBinary hid u = .panic := by
      intro hl
      unfold parseBinary
      cases h1 : uint32 hid u with
      | panic => rfl
      | err e => exact absurd h1 (by unfold uint32 sliceTo; split <;> simp <;> split <;> simp)
      | loop => exact absurd h1 (uint32_ne_loop _ _)
      | ok n =>
        rw [Res.bind_ok]
        by_cases h4 : u.length < 4
        · rw [sliceFrom_panic.2 h4]; rfl
        · have : MsgPack.sliceFrom 4 u = .ok [] := sliceFrom_iff.2 ⟨u, by omega, by simp⟩
          rw [this]; rfl
    generalize ht : (5 : UInt8) = t at h
    cases h with
    | word _ _ h => subst ht; simp at h
    | binLen _ h => exact short h
    | bin n s p h1 h2 h3 =>
      unfold parseBinary
      rw [uint32_iff.2 ⟨h1, _, List.append_assoc _ _ _⟩, Res.bind_ok, sliceFrom_iff.2 ⟨le 4 n, le_length _ _, rfl⟩]
      simp only [Res.bind_ok, at_, List.getElem?_cons_zero]
      rw [if_neg (by simpa using h2), sliceTo_panic.2 (by simp; omega)]
      rfl
    | bin2 n p h1 h2 =>
      unfold parseBinary
      rw [uint32_iff.2 ⟨h1, _, List.append_assoc _ _ _⟩, Res.bind_ok, sliceFrom_iff.2 ⟨le 4 n, le_length _ _, rfl⟩]
      simp only [Res.bind_ok, at_, List.getElem?_cons_zero]
      rw [if_pos (by decide)]
      by_cases hp : p.length < 4
      · rw [sliceFrom_panic.2 (by simp; omega)]; rfl
      · rw [(sliceFrom_iff (n := 5) (u := 2 :: p) (t := p.drop 4)).2 ⟨2 :: p.take 4, by simp; omega, by simp⟩, Res.bind_ok]
        cases hu : uint32 hid (p.drop 4) with
        | panic => rfl
        | err e => exact absurd hu (by unfold uint32 sliceTo; split <;> simp <;> split <;> simp)
        | loop => exact absurd hu (uint32_ne_loop _ _)
        | ok m =>
          rw [Res.bind_ok, sliceFrom_panic.2 (by simp; omega)]
          rfl
    | _ => simp at ht

theorem simple_panic {ty : UInt8} {u : Bytes} : parseSimple E hid ty u = .panic ↔ SimpleStuck hid ty u := by
  have w8 : ∀ (f : Nat → Nat × Val), (uint64 hid u >>= fun w => .ok (f w)) = .panic → u.length + hid.length < 8 := by
    intro f h
    replace h := Res.bind_eq_panic.1 h
    rcases h with h | ⟨_, _, h⟩
    · exact uint64_panic.1 h
    · cases h
  have w4 : ∀ (f : Nat → Nat × Val), (uint32 hid u >>= fun w => .ok (f w)) = .panic → u.length + hid.length < 4 := by
    intro f h
    replace h := Res.bind_eq_panic.1 h
    rcases h with h | ⟨_, _, h⟩
    · exact uint32_panic.1 h
    · cases h
  have ws : ∀ (n : Nat) (f : Bytes → Nat × Val), (sliceTo hid n u >>= fun w => .ok (f w)) = .panic → u.length + hid.length < n := by
    intro n f h
    replace h := Res.bind_eq_panic.1 h
    rcases h with h | ⟨_, _, h⟩
    · exact sliceTo_panic.1 h
    · cases h
  constructor
  · intro h
    unfold parseSimple at h
    by_cases h1 : ty = 1
    · subst h1; exact .word _ _ (by simp) (w8 _ h)
    rw [if_neg (by simpa using h1)] at h
    by_cases h2 : ty = 2
    · subst h2
      rw [if_pos (by decide)] at h
      replace h := Res.bind_eq_panic.1 h
      rcases h with h | ⟨n, hn, h⟩
      · exact .strLen u (uint32_panic.1 h)
      · obtain ⟨hn, q, e⟩ := uint32_iff.1 hn
        by_cases h0 : n = 0
        · subst h0; exact .str0 u q e
        · rw [if_neg h0] at h
          replace h := Res.bind_eq_panic.1 h
          rcases h with h | ⟨_, _, h⟩
          · unfold slice at h
            rw [e] at h
            split at h
            · cases h
            · rename_i hc
              refine .str n u q hn e ?_
              simp only [List.length_append, le_length] at hc
              omega
          · cases h
    rw [if_neg (by simpa using h2)] at h
    by_cases h5 : ty = 5
    · subst h5; exact binary_panic.1 h
    rw [if_neg (by simpa using h5)] at h
    by_cases h7 : ty = 7
    · subst h7; exact .oid _ (ws _ _ h)
    rw [if_neg (by simpa using h7)] at h
    by_cases h8 : ty = 8
    · subst h8
      cases u with
      | nil => exact .bool
      | cons x u => simp [at_] at h
    rw [if_neg (by simpa using h8)] at h
    by_cases h9 : ty = 9
    · subst h9; exact .word _ _ (by simp) (w8 _ h)
    rw [if_neg (by simpa using h9)] at h
    by_cases h16 : ty = 16
    · subst h16; exact .int32 _ (w4 _ h)
    rw [if_neg (by simpa using h16)] at h
    by_cases h17 : ty = 17
    · subst h17; exact .word _ _ (by simp) (w8 _ h)
    rw [if_neg (by simpa using h17)] at h
    by_cases h18 : ty = 18
    · subst h18; exact .word _ _ (by simp) (w8 _ h)
    rw [if_neg (by simpa using h18)] at h
    by_cases h19 : ty = 19
    · subst h19; exact .dec _ (ws _ _ h)
    rw [if_neg (by simpa using h19)] at h
    cases h
  · intro h
    cases h with
    | word ty u ht hl =>
      have := uint64_panic.2 hl
      simp only [List.mem_cons, List.not_mem_nil, or_false] at ht
      rcases ht with rfl | rfl | rfl | rfl <;> simp [parseSimple, this]
    | int32 u hl => simp [parseSimple, uint32_panic.2 hl]
    | oid u hl => simp [parseSimple, sliceTo_panic.2 hl]
    | dec u hl => simp [parseSimple, sliceTo_panic.2 hl]
    | bool => simp [parseSimple, at_]
    | strLen u hl => simp [parseSimple, uint32_panic.2 hl]
    | str0 u q e => simp [parseSimple, uint32_iff.2 ⟨(by decide : 0 < 2 ^ 32), q, e⟩]
    | str n u q hn e hq =>
      have hsl : slice hid 4 (4 + n - 1) u = .panic := by
        unfold slice
        rw [e, if_neg (by simp only [List.length_append, le_length]; omega)]
      simp only [parseSimple]
      rw [if_neg (by decide), if_pos (by decide), uint32_iff.2 ⟨hn, q, e⟩]
      simp only [Res.bind_ok, if_neg (show ¬ n = 0 by omega), hsl]
      rfl
    | binLen u h => exact binary_panic.2 (.binLen u h)
    | bin n s p h1 h2 h3 => exact binary_panic.2 (.bin n s p h1 h2 h3)
    | bin2 n p h1 h2 => exact binary_panic.2 (.bin2 n p h1 h2)

theorem stuck_type {ty : UInt8} {u : Bytes} (h : SimpleStuck hid ty u) : ty ≠ 3 ∧ ty ≠ 4 := by
  cases h with
  | word _ _ h => simp at h; rcases h with rfl | rfl | rfl | rfl <;> decide
  | _ => decide

/-! ## Where the grammar says so, the decoder panics -/

mutual
theorem docStuck_panic : ∀ {s : Bytes} {ku : Bool} {kvs : List (Bytes × Val)}, DocStuck E hid s ku kvs → Given E (.obj ku kvs) → ∀ f, 2 * s.length + 2 ≤ f → parseDoc E hid f s ku kvs = .panic
  | _, _, _, .mk n q ku kvs h1 h2 h3 h4, g, f + 1, hf => by
    have hl : (le 4 n ++ q).length = 4 + q.length := by simp
    have h0 : 0 < q.length := List.length_pos_iff.2 h2
    rw [parseDoc, if_neg (by omega), uint32_iff.2 ⟨h1, q ++ hid, List.append_assoc _ _ _⟩, Res.bind_ok]
    rw [if_neg (by omega), bodyStuck_panic h4 g (b := le 4 n ++ q) (docLen := n) (pi := 4) (by simp [List.drop_left' (le_length 4 n)]) rfl f (by omega)]
    rfl
theorem bodyStuck_panic : ∀ {m : Nat} {q : Bytes} {ku : Bool} {kvs : List (Bytes × Val)}, BodyStuck E hid m q ku kvs → Given E (.obj ku kvs) → ∀ {b : Bytes} {docLen pi : Nat}, b.drop pi = q → docLen - pi = m →
    ∀ f, 2 * (b.length - pi) + 1 ≤ f → docLoop E hid f b docLen pi ku kvs = .panic
  | _, _, _, _, .here m ty k u ku kvs h0 h1 h2, g, b, docLen, pi, hq, hm, f + 1, hf => by
    have hl := drop_len _ _ _ hq
    simp only [List.length_cons, List.length_append] at hl
    rw [docLoop_step g.1 (by omega) hq h1, elemStuck_panic h2 (start_given (member_given g.2.2)) f (by omega)]
    rfl
  | _, _, _, _, .later m ty k u ku kvs c w h0 h1 h2 h3 h4, g, b, docLen, pi, hq, hm, f + 1, hf => by
    have hl := drop_len _ _ _ hq
    simp only [List.length_cons, List.length_append] at hl
    have hu := (element_facts hq h1).2.2.2
    have he := elem_parse h2 (start_given (member_given g.2.2)) f (by omega)
    have gw : Given E w := ((Bson.given E hid f).2.2.1 _ _ _ _ (start_given (member_given g.2.2)) he)
    rw [docLoop_step g.1 (by omega) hq h1, he, Res.bind_ok]
    dsimp only
    rw [if_neg (by rw [hm]; exact h3)]
    refine bodyStuck_panic h4 (put_given g h1 gw) ?_ (by omega) f (by omega)
    rw [← hu, List.drop_drop]
    congr 1; omega
theorem elemStuck_panic : ∀ {ty : UInt8} {u : Bytes} {cur : Val}, ElemStuck E hid ty u cur → Given E cur → ∀ f, 2 * u.length + 3 ≤ f → parseElem E hid f ty u cur = .panic
  | _, _, _, .simple ty u cur h, g, f + 1, hf => by
    obtain ⟨h3, h4⟩ := stuck_type h
    simp only [parseElem, beq_iff_eq, h3, h4, if_false]
    exact simple_panic.2 h
  | _, _, _, .doc u ku kvs h, g, f + 1, hf => by
    simp only [parseElem, show ((3 : UInt8) == 4) = false from rfl, show ((3 : UInt8) == 3) = true from rfl, Bool.false_eq_true, if_false, if_true]
    exact docStuck_panic h g f (by omega)
  | _, _, _, .arrLen u xs h, g, f + 2, hf => by
    simp only [parseElem, show ((4 : UInt8) == 4) = true from rfl, if_true]
    rw [parseArr, uint32_panic.2 h]
    rfl
  | _, _, _, .arr u xs n q h1 h2 h3 h4, g, f + 2, hf => by
    simp only [parseElem, show ((4 : UInt8) == 4) = true from rfl, if_true]
    rw [parseArr, uint32_iff.2 ⟨h1, q, h2⟩, Res.bind_ok]
    rw [if_neg (by omega), itemsStuck_panic h4 g rfl rfl f (by omega)]
    rfl
theorem itemsStuck_panic : ∀ {m : Nat} {q : Bytes} {xs : List Val}, ItemsStuck E hid m q xs → GivenL E xs → ∀ {b : Bytes} {docLen pi : Nat}, b.drop pi = q → docLen - pi = m →
    ∀ f, 2 * (b.length - pi) + 1 ≤ f → arrLoop E hid f b docLen pi xs = .panic
  | _, _, _, .here m ty k u i xs h0 h1 h2 h3 h4, g, b, docLen, pi, hq, hm, f + 1, hf => by
    have hl := drop_len _ _ _ hq
    simp only [List.length_cons, List.length_append] at hl
    rw [arrLoop_step (by omega) hq h1 h2 h3, elemStuck_panic h4 (start_given (slot_given g)) f (by omega)]
    rfl
  | _, _, _, .later m ty k u i xs c w h0 h1 h2 h3 h4 h5 h6, g, b, docLen, pi, hq, hm, f + 1, hf => by
    have hl := drop_len _ _ _ hq
    simp only [List.length_cons, List.length_append] at hl
    have hu := (element_facts hq h1).2.2.2
    have he := elem_parse h4 (start_given (slot_given g)) f (by omega)
    have gw : Given E w := ((Bson.given E hid f).2.2.1 _ _ _ _ (start_given (slot_given g)) he)
    rw [arrLoop_step (by omega) hq h1 h2 h3, he, Res.bind_ok]
    dsimp only
    rw [if_neg (by rw [hm]; exact h5)]
    refine itemsStuck_panic h6 (store_given g gw) ?_ (by omega) f (by omega)
    rw [← hu, List.drop_drop]
    congr 1; omega
end

/-! ## It panics nowhere else -/

theorem at_panic {b : Bytes} {pi : Nat} (h : at_ b pi = .panic) : b.length ≤ pi := by
  unfold at_ at h
  split at h
  · cases h
  · rename_i hx; exact List.getElem?_eq_none_iff.1 hx

/-- A member or an element has the type its element says. -/
theorem start_type (ty : UInt8) (o : Option Val) : (ty = 3 → ∃ ku kvs, start ty o = .obj ku kvs) ∧ (ty = 4 → ∃ xs, start ty o = .arr xs) := by
  constructor
  · rintro rfl
    unfold start
    rw [if_pos rfl]
    split
    · exact ⟨_, _, rfl⟩
    · exact ⟨_, _, rfl⟩
  · rintro rfl
    unfold start
    rw [if_neg (by decide), if_pos rfl]
    split
    · exact ⟨_, rfl⟩
    · exact ⟨_, rfl⟩

theorem panic_grammar (E : Env) (hid : Bytes) : ∀ f : Nat,
    (∀ b ku kvs, Given E (.obj ku kvs) → parseDoc E hid f b ku kvs = .panic → DocStuck E hid b ku kvs) ∧
    (∀ b docLen pi ku kvs, docLen ≤ b.length → Given E (.obj ku kvs) → docLoop E hid f b docLen pi ku kvs = .panic → BodyStuck E hid (docLen - pi) (b.drop pi) ku kvs) ∧
    (∀ ty b cur, Given E cur → (ty = 3 → ∃ ku kvs, cur = .obj ku kvs) ∧ (ty = 4 → ∃ xs, cur = .arr xs) → parseElem E hid f ty b cur = .panic → ElemStuck E hid ty b cur) ∧
    (∀ b docLen pi xs, docLen ≤ b.length → GivenL E xs → arrLoop E hid f b docLen pi xs = .panic → ItemsStuck E hid (docLen - pi) (b.drop pi) xs) ∧
    (∀ b xs, GivenL E xs → parseArr E hid f b xs = .panic → ElemStuck E hid 4 b (.arr xs))
  | 0 => by
    refine ⟨?_, ?_, ?_, ?_, ?_⟩ <;> intros <;> simp_all [parseDoc, docLoop, parseElem, parseArr, arrLoop]
  | f + 1 => by
    obtain ⟨id, idl, ie, ial, ia⟩ := panic_grammar E hid f
    refine ⟨?_, ?_, ?_, ?_, ?_⟩
    · intro b ku kvs g h
      rw [parseDoc] at h
      split at h
      · cases h
      rename_i hl
      replace h := Res.bind_eq_panic.1 h
      rcases h with h | ⟨n, h1, h⟩
      · have := uint32_panic.1 h; omega
      split at h
      · cases h
      rename_i hle
      replace h := Res.bind_eq_panic.1 h
      rcases h with h | ⟨o, ho, h⟩
      · obtain ⟨hm, q, e⟩ := uint32_iff.1 h1
        have hb := idl _ _ _ _ _ (by omega) g h
        have e4 : b = le 4 n ++ b.drop 4 := by
          have := congrArg (List.take 4) e
          rw [List.take_append_of_le_length (by omega), List.take_left' (le_length 4 n)] at this
          rw [← this, List.take_append_drop]
        have hlen : (b.drop 4).length = b.length - 4 := List.length_drop
        have := DocStuck.mk n (b.drop 4) ku kvs hm (fun h0 => by rw [h0] at hlen; simp at hlen; omega) (by omega) hb
        rw [← e4] at this
        exact this
      · cases h
    · intro b docLen pi ku kvs hdl g h
      by_cases hd : pi < docLen
      · have h' := h
        rw [docLoop, if_pos hd] at h'
        replace h' := Res.bind_eq_panic.1 h'
        rcases h' with h' | ⟨ty, h1, h'⟩
        · have := at_panic h'; omega
        dsimp only at h'
        split at h'
        · cases h'
        rename_i kn hidx
        clear h'
        obtain ⟨k, u, hq, hk⟩ := element_at h1 hidx
        rw [docLoop_step g.1 hd hq hk] at h
        have gs : Given E (start ty (member E kvs k)) := start_given (member_given g.2.2)
        rw [hq]
        replace h := Res.bind_eq_panic.1 h
        rcases h with h | ⟨⟨c, w⟩, hw, h⟩
        · exact .here _ ty k u ku kvs (by omega) hk (ie _ _ _ gs (start_type _ _) h)
        have he := (parse_grammar E hid f).2.2.1 _ _ _ _ _ gs hw
        have gw : Given E w := (Bson.given E hid f).2.2.1 _ _ _ _ gs hw
        dsimp only at h
        split at h
        · cases h
        · rename_i hend
          have hb := idl _ _ _ _ _ hdl (put_given g hk gw) h
          have hu := (element_facts hq hk).2.2.2
          have hdr : b.drop (pi + (k.length + 2 + c)) = u.drop c := by rw [← hu, List.drop_drop]; congr 1; omega
          rw [hdr, ← Nat.sub_sub] at hb
          exact .later _ ty k u ku kvs c w (by omega) hk he hend hb
      · rw [docLoop, if_neg hd] at h
        cases h
    · intro ty b cur g ht h
      unfold parseElem at h
      split at h
      · rename_i h4
        rw [eq_of_beq h4]
        split at h
        · exact ia _ _ g h
        · rename_i hn
          obtain ⟨xs, hx⟩ := ht.2 (eq_of_beq h4)
          exact absurd hx (hn xs)
      · split at h
        · rename_i h3
          rw [eq_of_beq h3]
          split at h
          · exact .doc _ _ _ (id _ _ _ g h)
          · rename_i hn
            obtain ⟨ku, kvs, hx⟩ := ht.1 (eq_of_beq h3)
            exact absurd hx (hn ku kvs)
        · exact .simple _ _ _ (simple_panic.1 h)
    · intro b docLen pi xs hdl g h
      by_cases hd : pi < docLen
      · have h' := h
        rw [arrLoop, if_pos hd] at h'
        replace h' := Res.bind_eq_panic.1 h'
        rcases h' with h' | ⟨ty, h1, h'⟩
        · have := at_panic h'; omega
        dsimp only at h'
        split at h'
        · cases h'
        rename_i kn hidx
        obtain ⟨k, u, hq, hk⟩ := element_at h1 hidx
        have hkn : kn = k.length := by
          have := (element_facts hq hk).2.1
          rw [hidx] at this
          exact Option.some.inj this
        rw [hkn, (element_facts hq hk).2.2.1] at h'
        split at h'
        · cases h'
        rename_i hidx
        clear h'
        cases hi : E.strToInt k with
        | none => rw [hi] at hidx; simp at hidx
        | some i =>
        rw [hi] at hidx
        have hi1 : i.toInt ≠ -1 := by simpa using hidx
        rw [arrLoop_step hd hq hk hi hi1] at h
        have gs : Given E (start ty (slot xs i.toInt)) := start_given (slot_given g)
        rw [hq]
        replace h := Res.bind_eq_panic.1 h
        rcases h with h | ⟨⟨c, w⟩, hw, h⟩
        · exact .here _ ty k u i xs (by omega) hk hi hi1 (ie _ _ _ gs (start_type _ _) h)
        have he := (parse_grammar E hid f).2.2.1 _ _ _ _ _ gs hw
        have gw : Given E w := (Bson.given E hid f).2.2.1 _ _ _ _ gs hw
        dsimp only at h
        split at h
        · cases h
        · rename_i hend
          have hb := ial _ _ _ _ hdl (store_given g gw) h
          have hu := (element_facts hq hk).2.2.2
          have hdr : b.drop (pi + (k.length + 2 + c)) = u.drop c := by rw [← hu, List.drop_drop]; congr 1; omega
          rw [hdr, ← Nat.sub_sub] at hb
          exact .later _ ty k u i xs c w (by omega) hk hi hi1 he hend hb
      · rw [arrLoop, if_neg hd] at h
        cases h
    · intro b xs g h
      rw [parseArr] at h
      replace h := Res.bind_eq_panic.1 h
      rcases h with h | ⟨m, h1, h⟩
      · exact .arrLen _ _ (uint32_panic.1 h)
      split at h
      · cases h
      rename_i hle
      replace h := Res.bind_eq_panic.1 h
      rcases h with h | ⟨o, ho, h⟩
      · obtain ⟨hm, q, e⟩ := uint32_iff.1 h1
        exact .arr b xs m q hm e (by omega) (ial _ _ _ _ (by omega) g h)
      · cases h

/-- **C58**, where it fails: the decoder panics exactly on the inputs of the grammar `DocStuck`. -/
theorem C58_exact (E : Env) (hid b : Bytes) : newValueFromBson E hid b = .panic ↔ DocStuck E hid b false [] := by
  unfold newValueFromBson
  constructor
  · intro h
    replace h := Res.bind_eq_panic.1 h
    rcases h with h | ⟨_, _, h⟩
    · exact (panic_grammar E hid _).1 _ _ _ empty_given h
    · cases h
  · intro h
    rw [docStuck_panic h empty_given _ (Nat.le_refl _)]; rfl

/-- C136 and C58 together: an input is a document, or stuck, or refused with an error, and only one of these. -/
theorem C136_errors (E : Env) (hid b : Bytes) : (∃ e, newValueFromBson E hid b = .err e) ↔ (∀ n v, ¬ Doc E hid b false [] n v) ∧ ¬ DocStuck E hid b false [] := by
  constructor
  · rintro ⟨e, h⟩
    refine ⟨fun n v hd => ?_, fun hs => ?_⟩
    · rw [(C136_exact E hid b v).2 ⟨n, hd⟩] at h; cases h
    · rw [(C58_exact E hid b).2 hs] at h; cases h
  · rintro ⟨h1, h2⟩
    rcases C136_refused E hid b h1 with h | h
    · exact h
    · exact absurd ((C58_exact E hid b).1 h) h2

/-- C58: the bytes behind the input matter only for inputs that are stuck without them. -/
theorem C58_capacity (E : Env) (hid b : Bytes) (h : newValueFromBson E hid b ≠ newValueFromBson E [] b) : DocStuck E [] b false [] := by
  by_cases hp : newValueFromBson E [] b = .panic
  · exact (C58_exact E [] b).1 hp
  · exact absurd (C58_capacity_partial E hid b hp) h

example : DocStuck envEx [] [9, 0, 0, 0, 4, 97, 0, 2, 0] false [] := (C58_exact _ _ _).1 (by decide +kernel)
example : ¬ DocStuck envEx [0, 0] [9, 0, 0, 0, 4, 97, 0, 2, 0] false [] := fun h => by
  have h1 := (C58_exact _ _ _).2 h
  have h2 : newValueFromBson envEx [0, 0] [9, 0, 0, 0, 4, 97, 0, 2, 0] = .ok (.obj true [([97], .arr [])]) := by decide +kernel
  rw [h2] at h1
  cases h1
example : newValueFromBson envEx [0, 0] [9, 0, 0, 0, 4, 97, 0, 2, 0] ≠ newValueFromBson envEx [] [9, 0, 0, 0, 4, 97, 0, 2, 0] := by decide +kernel
example : ∃ e, newValueFromBson envEx [] [12, 0, 0, 0, 1] = .err e := ⟨_, rfl⟩

end Dxs.Bson
