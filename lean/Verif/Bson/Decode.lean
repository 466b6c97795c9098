import Verif.Bson.Encode

/-! The BSON decoder on documents of the specification. -/

namespace Dxs.Bson
open Spec

theorem be4_list (n : Nat) (h : n < 2 ^ 32) (b0 b1 b2 b3 : UInt8) (hb : le 4 n = [b0, b1, b2, b3]) :
    be32 b3 b2 b1 b0 = n := by
  simp only [le, List.cons.injEq, and_true] at hb
  obtain ⟨rfl, rfl, rfl, rfl⟩ := hb
  rw [be32_eq]
  simp [-UInt8.ofNat_add]
  omega

theorem be8_list (n : Nat) (h : n < 2 ^ 64) (b0 b1 b2 b3 b4 b5 b6 b7 : UInt8)
    (hb : le 8 n = [b0, b1, b2, b3, b4, b5, b6, b7]) : be64 b7 b6 b5 b4 b3 b2 b1 b0 = n := by
  simp only [le, List.cons.injEq, and_true] at hb
  obtain ⟨rfl, rfl, rfl, rfl, rfl, rfl, rfl, rfl⟩ := hb
  rw [be64_eq]
  simp [-UInt8.ofNat_add]
  omega

theorem uint32_le (hid r : Bytes) (n : Nat) (h : n < 2 ^ 32) : uint32 hid (le 4 n ++ r) = .ok n := by
  have hs : sliceTo hid 4 (le 4 n ++ r) = .ok (le 4 n) := by
    unfold sliceTo
    rw [if_pos (by simp)]
    simp
  unfold uint32
  rw [hs]
  have := be4_list n h (UInt8.ofNat n) (UInt8.ofNat (n / 256)) (UInt8.ofNat (n / 256 / 256))
    (UInt8.ofNat (n / 256 / 256 / 256)) rfl
  simp only [Res.bind_ok, le, this]

theorem uint64_le (hid r : Bytes) (n : Nat) (h : n < 2 ^ 64) : uint64 hid (le 8 n ++ r) = .ok n := by
  have hs : sliceTo hid 8 (le 8 n ++ r) = .ok (le 8 n) := by
    unfold sliceTo
    rw [if_pos (by simp)]
    simp
  unfold uint64
  rw [hs]
  have := be8_list n h (UInt8.ofNat n) (UInt8.ofNat (n / 256)) (UInt8.ofNat (n / 256 / 256))
    (UInt8.ofNat (n / 256 / 256 / 256)) _ _ _ _ rfl
  simp only [Res.bind_ok, le, this]

theorem sliceTo_pre (hid a r : Bytes) (n : Nat) (h : a.length = n) : sliceTo hid n (a ++ r) = .ok a := by
  subst h
  unfold sliceTo
  rw [if_pos (by simp)]
  simp

theorem at_drop (b : Bytes) (pi : Nat) (x : UInt8) (r : Bytes) (h : b.drop pi = x :: r) :
    at_ b pi = .ok x := by
  have : b[pi]? = some x := by
    have := congrArg (·[0]?) h
    simpa using this
  simp [at_, this]

theorem idxOf_key (k r : Bytes) (h : (0 : UInt8) ∉ k) : (k ++ 0 :: r).idxOf? 0 = some k.length := by
  induction k with
  | nil => simp [List.idxOf?, List.findIdx?_cons]
  | cons x xs ih =>
    simp at h
    have ih := ih h.2
    simp only [List.cons_append, List.idxOf?, List.findIdx?_cons] at ih ⊢
    rw [if_neg (by simpa using Ne.symm h.1), ih]
    simp

theorem indexByName_new {E : Env} {kvs : List (Bytes × Val)} {k : Bytes} {ku : Bool}
    (hku : ku = true ∨ kvs = [])
    (h : ∀ kv ∈ kvs, E.keyMatch kv.1 k = false) :
    indexByName E ku kvs k = (none, true, kvs) := by
  have hu : unescKeys E ku kvs = kvs := by
    rcases hku with rfl | rfl <;> simp [unescKeys]
  unfold indexByName
  rw [hu, MsgPack.findKey_none h]
  by_cases hc : (!ku && !(k.contains 92)) = true <;> simp

theorem digitsAux_not_zero (f n : Nat) : (0 : UInt8) ∉ digitsAux f n := by
  induction f generalizing n with
  | zero => simp [digitsAux]
  | succ f ih =>
    have hd : ∀ m, m < 10 → (0 : UInt8) ≠ byteN (48 + m) := by
      intro m hm he
      have := congrArg UInt8.toNat he
      simp at this
      omega
    unfold digitsAux
    split
    · rename_i h; simpa using hd n h
    · simp only [List.mem_append, not_or, List.mem_singleton]
      exact ⟨ih _, hd _ (by omega)⟩

theorem decNat_not_zero (n : Nat) : (0 : UInt8) ∉ decNat n := digitsAux_not_zero _ _

/-- What the array decoder needs from `StrToIntDef`: it reads back the index keys. -/
def IndexLaw (E : Env) : Prop := ∀ i : Nat, i < 2 ^ 31 → E.strToInt (decNat i) = some (BitVec.ofNat 64 i)

theorem ofNat_toInt (i : Nat) (h : i < 2 ^ 63) : (BitVec.ofNat 64 i).toInt = i := by
  rw [BitVec.toInt_eq_toNat_cond]
  simp
  omega

theorem leI_toNat8 (n : Int) : leI 8 n = le 8 (BitVec.ofInt 64 n).toNat := by
  simp only [leI, BitVec.toNat_ofInt]
  rfl

theorem leI_nonneg4 (n : Int) (h : 0 ≤ n) (h2 : n < 2 ^ 31) : leI 4 n = le 4 n.toNat := by
  simp only [leI]
  congr 1
  omega

/-- What is left after the elements: the final zero byte ends the loop. -/
theorem end_check (b : Bytes) (pi docLen : Nat) (r : Bytes) (h : b.drop pi = 0 :: r)
    (hd : docLen = pi + 1) : pi = docLen - 1 ∧ b[pi]? = some 0 := by
  refine ⟨by omega, ?_⟩
  have := congrArg (·[0]?) h
  simpa using this

theorem elems_ne (i : Nat) (xs : List BElem) (h : xs ≠ []) : 0 < (elems i xs).length := by
  cases xs with
  | nil => exact absurd rfl h
  | cons e es => simp [elems]
theorem members_ne (xs : List (Bytes × BElem)) (h : xs ≠ []) : 0 < (members xs).length := by
  cases xs with
  | nil => exact absurd rfl h
  | cons e es => obtain ⟨k, e⟩ := e; simp [members]

theorem frame_length (body : Bytes) : (frame body).length = body.length + 5 := by
  simp [frame]; omega

theorem frame_drop (body r : Bytes) : (frame body ++ r).drop 4 = body ++ 0 :: r := by
  simp [frame, le]

theorem drop_after (b p q : Bytes) (pi n : Nat) (h : b.drop pi = p ++ q) (hn : p.length = n) :
    b.drop (pi + n) = q := by
  rw [← List.drop_drop, h, ← hn]; simp

theorem drop_len (b x : Bytes) (pi : Nat) (h : b.drop pi = x) : x.length = b.length - pi := by
  rw [← h]; simp

theorem parseElem_doc (E : Env) (hid b : Bytes) (f : Nat) :
    parseElem E hid (f + 1) 3 b (blank (targetType 3)) = parseDoc E hid f b false [] := by
  show parseElem E hid (f + 1) 3 b (.obj false []) = _
  simp [parseElem]
theorem parseElem_arr (E : Env) (hid b : Bytes) (f : Nat) :
    parseElem E hid (f + 1) 4 b (blank (targetType 4)) = parseArr E hid f b [] := by
  show parseElem E hid (f + 1) 4 b (.arr []) = _
  simp [parseElem]

theorem indexByName_acc {E : Env} {kvs : List (Bytes × Val)} {k : Bytes} {ku : Bool}
    (hku : ku = true ∨ kvs = []) : indexByName E ku kvs k = (findKey E kvs k, true, kvs) := by
  rcases hku with rfl | rfl
  · simp [indexByName, unescKeys]
  · simp only [indexByName, unescKeys, findKey]
    cases ku <;> cases (k.contains 92) <;> simp

/-- The element before parsing does not matter, except for documents and arrays. -/
theorem parseElem_cur (E : Env) (hid b : Bytes) (f : Nat) (e : BElem) (h : isContainer e = false) (c c' : Val) :
    parseElem E hid f (ty e) b c = parseElem E hid f (ty e) b c' := by
  cases f with
  | zero => simp only [parseElem]
  | succ f => cases e <;> first | (simp [isContainer] at h; done) | simp [parseElem, ty]

mutual
theorem dec_ok (E : Env) (hE : IndexLaw E) (hid : Bytes) : ∀ (e : BElem) (r : Bytes) (f : Nat), WF e → Readable E e →
    2 * (payload e ++ r).length + 3 ≤ f →
    ∃ v, Denotes E e v ∧
      parseElem E hid f (ty e) (payload e ++ r) (blank (targetType (ty e))) = .ok ((payload e).length, v)
  | .double w, r, f + 1, _, _, _ => by
    refine ⟨_, rfl, ?_⟩
    simp only [parseElem, ty, parseSimple, payload]
    simp [uint64_le hid r w.toNat w.isLt]
  | .str s, r, f + 1, h, _, _ => by
    have h : s.length + 1 < 2 ^ 31 := h
    refine ⟨_, rfl, ?_⟩
    simp only [parseElem, ty, parseSimple, payload, List.append_assoc]
    have hsl : slice hid 4 (4 + (s.length + 1) - 1) (le 4 (s.length + 1) ++ (s ++ ([0] ++ r))) = .ok s := by
      unfold slice
      rw [if_pos (by simp)]
      have h1 : 4 + (s.length + 1) - 1 = (le 4 (s.length + 1) ++ s).length := by simp
      have h2 : (le 4 (s.length + 1) ++ (s ++ ([0] ++ r))) ++ hid = (le 4 (s.length + 1) ++ s) ++ (0 :: (r ++ hid)) := by
        simp
      rw [h2, h1, List.take_left]
      simp [le]
    rw [uint32_le hid _ (s.length + 1) (by omega)]
    simp only [Res.bind_ok, Nat.add_eq_zero_iff, Nat.one_ne_zero, and_false, if_false, hsl]
    simp
  | .doc kvs, r, f + 1, h, hr, hf => by
    obtain ⟨hw, hwm⟩ := h
    obtain ⟨hne, hp, hrm⟩ := hr
    have hpl : (payload (.doc kvs)).length = (members kvs).length + 5 := by simp [payload, frame_length]
    have hfl : (frame (members kvs) ++ r).length = (members kvs).length + 5 + r.length := by
      simp [frame_length]
    obtain ⟨f, rfl⟩ : ∃ g, f = g + 1 := ⟨f - 1, by simp only [payload] at hf; omega⟩
    obtain ⟨vs, hv, e⟩ := decM_ok E hE hid kvs r (frame (members kvs) ++ r) ((members kvs).length + 5) 4 f
      false [] (frame_drop _ _) (by omega) hne hwm hrm hp (Or.inr rfl) (by simp)
      (by simp only [payload] at hf; omega)
    refine ⟨_, ⟨vs, rfl, hv⟩, ?_⟩
    rw [ty, parseElem_doc, payload, parseDoc]
    have hu : uint32 hid (frame (members kvs) ++ r) = .ok ((members kvs).length + 5) := by
      unfold frame
      rw [List.append_assoc, List.append_assoc]
      exact uint32_le hid _ _ (by omega)
    have h4 : ¬ (frame (members kvs) ++ r).length ≤ 4 := by omega
    have hlt : ¬ ((members kvs).length + 5 > (frame (members kvs) ++ r).length) := by omega
    rw [if_neg h4, hu]
    simp only [Res.bind_ok]
    rw [if_neg hlt, e]
    simp [frame_length, Assoc.lastWins]
  | .arr xs, r, f + 1, h, hr, hf => by
    obtain ⟨hw, hwm⟩ := h
    obtain ⟨hne, hrm⟩ := hr
    have hpl : (payload (.arr xs)).length = (elems 0 xs).length + 5 := by simp [payload, frame_length]
    have hfl : (frame (elems 0 xs) ++ r).length = (elems 0 xs).length + 5 + r.length := by
      simp [frame_length]
    obtain ⟨f, rfl⟩ : ∃ g, f = g + 1 := ⟨f - 1, by simp only [payload] at hf; omega⟩
    obtain ⟨vs, hv, e⟩ := decL_ok E hE hid xs r (frame (elems 0 xs) ++ r) ((elems 0 xs).length + 5) 4 f
      [] (frame_drop _ _) (by simp; omega) (by simp; omega) hne hwm hrm
      (by simp only [payload] at hf; omega)
    refine ⟨.arr vs, ⟨vs, rfl, hv⟩, ?_⟩
    rw [ty, parseElem_arr, payload, parseArr]
    have hu : uint32 hid (frame (elems 0 xs) ++ r) = .ok ((elems 0 xs).length + 5) := by
      unfold frame
      rw [List.append_assoc, List.append_assoc]
      exact uint32_le hid _ _ (by omega)
    have hlt : ¬ ((elems 0 xs).length + 5 > (frame (elems 0 xs) ++ r).length) := by omega
    simp only [List.nil_append] at e
    rw [hu]
    simp only [Res.bind_ok]
    rw [if_neg hlt, e]
    simp [frame_length]
  | .bin _ _, _, _ + 1, _, h, _ => h.elim
  | .oid b, r, f + 1, h, _, _ => by
    have h : b.length = 12 := h
    refine ⟨_, rfl, ?_⟩
    simp [parseElem, ty, parseSimple, payload, sliceTo_pre hid b r 12 h, h]
  | .bool x, r, f + 1, _, _, _ => by
    refine ⟨_, rfl, ?_⟩
    cases x <;> simp [parseElem, ty, parseSimple, payload, at_]
  | .dateTime n, r, f + 1, h, _, _ => by
    refine ⟨_, rfl, ?_⟩
    simp only [parseElem, ty, parseSimple, payload, leI_toNat8]
    simp [uint64_le hid r _ (BitVec.isLt _), -BitVec.toNat_ofInt]
  | .null, r, f + 1, _, _, _ => ⟨_, rfl, by simp [parseElem, ty, parseSimple, payload]⟩
  | .int32 n, r, f + 1, h, hr, _ => by
    obtain ⟨h1, h2⟩ := h
    have hr : 0 ≤ n := hr
    refine ⟨_, ⟨BitVec.ofNat 64 n.toNat, rfl, ?_⟩, ?_⟩
    · rw [ofNat_toInt _ (by omega)]; omega
    · simp only [parseElem, ty, parseSimple, payload, leI_nonneg4 n hr h2]
      simp [uint32_le hid r n.toNat (by omega)]
  | .timestamp w, r, f + 1, _, _, _ => by
    refine ⟨_, rfl, ?_⟩
    simp only [parseElem, ty, parseSimple, payload]
    simp [uint64_le hid r w.toNat w.isLt]
  | .int64 n, r, f + 1, h, _, _ => by
    obtain ⟨h1, h2⟩ := h
    refine ⟨_, ⟨BitVec.ofInt 64 n, rfl, ?_⟩, ?_⟩
    · rw [BitVec.toInt_ofInt]
      rw [Int.bmod_eq_of_le] <;> omega
    · simp only [parseElem, ty, parseSimple, payload, leI_toNat8]
      simp [uint64_le hid r _ (BitVec.isLt _), -BitVec.toNat_ofInt]
  | .dec128 b, r, f + 1, h, _, _ => by
    have h : b.length = 16 := h
    refine ⟨_, rfl, ?_⟩
    simp [parseElem, ty, parseSimple, payload, sliceTo_pre hid b r 16 h, h]
  | .double _, _, 0, _, _, h | .str _, _, 0, _, _, h | .doc _, _, 0, _, _, h | .arr _, _, 0, _, _, h
  | .bin _ _, _, 0, _, _, h | .oid _, _, 0, _, _, h | .bool _, _, 0, _, _, h | .dateTime _, _, 0, _, _, h
  | .null, _, 0, _, _, h | .int32 _, _, 0, _, _, h | .timestamp _, _, 0, _, _, h | .int64 _, _, 0, _, _, h
  | .dec128 _, _, 0, _, _, h => by omega
theorem decM_ok (E : Env) (hE : IndexLaw E) (hid : Bytes) : ∀ (kvs : List (Bytes × BElem)) (r b : Bytes) (docLen pi f : Nat)
    (ku : Bool) (acc : List (Bytes × Val)),
    b.drop pi = members kvs ++ 0 :: r → docLen = pi + (members kvs).length + 1 → kvs ≠ [] →
    WFM kvs → ReadableM E kvs →
    kvs.Pairwise (fun a b => isContainer b.2 = true → E.keyMatch a.1 b.1 = false) →
    (ku = true ∨ acc = []) →
    (∀ a ∈ acc, ∀ kv ∈ kvs, isContainer kv.2 = true → E.keyMatch a.1 kv.1 = false) →
    2 * (b.length - pi) + 1 ≤ f →
    ∃ vs, DenotesM E kvs vs ∧ docLoop E hid f b docLen pi ku acc = .ok (.obj true (Assoc.putAll E.keyMatch acc vs))
  | [], _, _, _, _, _, _, _, _, _, h, _, _, _, _, _, _ => absurd rfl h
  | (k, e) :: kvs, r, b, docLen, pi, f, ku, acc, hb, hd, _, hw, hr, hp, hku, hac, hf => by
    obtain ⟨hk, hwe, hwm⟩ := hw
    simp only [members, List.cons_append, List.append_assoc] at hb hd
    have hblen := drop_len _ _ _ hb
    simp at hblen hd
    have hb1 : b.drop (pi + 1) = k ++ 0 :: (payload e ++ (members kvs ++ 0 :: r)) := by
      have := drop_after b [ty e] _ pi 1 hb rfl
      simpa using this
    have hb2 : b.drop (pi + 1 + k.length + 1) = payload e ++ (members kvs ++ 0 :: r) := by
      have := drop_after b (k ++ [0]) (payload e ++ (members kvs ++ 0 :: r)) (pi + 1) (k.length + 1)
        (by rw [hb1]; simp) (by simp)
      rw [← this]; rfl
    have hb3 : b.drop (pi + 1 + k.length + 1 + (payload e).length) = members kvs ++ 0 :: r :=
      drop_after b _ _ _ _ hb2 rfl
    obtain ⟨f, rfl⟩ : ∃ g, f = g + 1 := ⟨f - 1, by omega⟩
    obtain ⟨v, hv, ev⟩ := dec_ok E hE hid e (members kvs ++ 0 :: r) f hwe hr.1 (by simp; omega)
    have step : docLoop E hid (f + 1) b docLen pi ku acc =
        if pi + 1 + k.length + 1 + (payload e).length = docLen - 1 ∧
            b[pi + 1 + k.length + 1 + (payload e).length]? = some 0 then .ok (.obj true (Assoc.put E.keyMatch acc k v))
        else docLoop E hid f b docLen (pi + 1 + k.length + 1 + (payload e).length) true
          (Assoc.put E.keyMatch acc k v) := by
      rw [docLoop, if_pos (by omega), at_drop b pi _ _ hb]
      simp only [Res.bind_ok, hb1, idxOf_key k _ hk, List.take_left, indexByName_acc hku, hb2]
      rw [Assoc.put_findIdx]
      change (match (findKey E acc k, true, acc) with | (some i, ku', kvs') => _ | (none, ku', kvs') => _) = _
      cases hfk : findKey E acc k with
      | none =>
        simp only [ev, Res.bind_ok]
        unfold findKey at hfk
        rw [hfk]
      | some i =>
        have hc : isContainer e = false := by
          cases hce : isContainer e with
          | false => rfl
          | true =>
            rw [MsgPack.findKey_none (fun a ha => hac a ha (k, e) (by simp) hce)] at hfk
            cases hfk
        simp only
        rw [parseElem_cur E hid _ f e hc _ (blank (targetType (ty e))), ev]
        unfold findKey at hfk
        rw [hfk]
        rfl
    by_cases hn : kvs = []
    · subst hn
      simp [members] at hb3 hd
      refine ⟨[(k, v)], ⟨v, [], rfl, hv, rfl⟩, ?_⟩
      rw [step, if_pos (end_check b _ docLen r hb3 (by omega))]
      rfl
    · have hpos := members_ne kvs hn
      simp only [List.pairwise_cons] at hp
      obtain ⟨vs, hvs, es⟩ := decM_ok E hE hid kvs r b docLen (pi + 1 + k.length + 1 + (payload e).length) f true
        (Assoc.put E.keyMatch acc k v) hb3 (by omega) hn hwm hr.2 hp.2 (Or.inl rfl)
        (by
          intro a ha kv hkv hcc
          rcases Assoc.mem_put ha with ⟨a', ha', e'⟩ | ha
          · rw [← e']; exact hac a' ha' kv (by simp [hkv]) hcc
          · rw [ha]; exact hp.1 kv hkv hcc)
        (by omega)
      refine ⟨(k, v) :: vs, ⟨v, vs, rfl, hv, hvs⟩, ?_⟩
      rw [step, if_neg (by omega), es]
      rfl
theorem decL_ok (E : Env) (hE : IndexLaw E) (hid : Bytes) : ∀ (xs : List BElem) (r b : Bytes) (docLen pi f : Nat)
    (acc : List Val),
    b.drop pi = elems acc.length xs ++ 0 :: r → docLen = pi + (elems acc.length xs).length + 1 →
    acc.length + (elems acc.length xs).length < 2 ^ 31 → xs ≠ [] →
    WFL xs → ReadableL E xs →
    2 * (b.length - pi) + 1 ≤ f →
    ∃ vs, DenotesL E xs vs ∧ arrLoop E hid f b docLen pi acc = .ok (.arr (acc ++ vs))
  | [], _, _, _, _, _, _, _, _, _, h, _, _, _ => absurd rfl h
  | e :: es, r, b, docLen, pi, f, acc, hb, hd, hlt, _, hw, hr, hf => by
    obtain ⟨hwe, hwm⟩ := hw
    simp only [elems, List.cons_append, List.append_assoc] at hb hd hlt
    have hblen := drop_len _ _ _ hb
    simp at hblen hd hlt
    let k := decNat acc.length
    have hk : (0 : UInt8) ∉ k := decNat_not_zero _
    have hkd : decNat acc.length = k := rfl
    rw [hkd] at hb hd hlt hblen
    have hb1 : b.drop (pi + 1) = k ++ 0 :: (payload e ++ (elems (acc.length + 1) es ++ 0 :: r)) := by
      have := drop_after b [ty e] _ pi 1 hb rfl
      simpa using this
    have hb2 : b.drop (pi + 1 + k.length + 1) = payload e ++ (elems (acc.length + 1) es ++ 0 :: r) := by
      have := drop_after b (k ++ [0]) (payload e ++ (elems (acc.length + 1) es ++ 0 :: r)) (pi + 1) (k.length + 1)
        (by rw [hb1]; simp) (by simp)
      rw [← this]; rfl
    have hb3 : b.drop (pi + 1 + k.length + 1 + (payload e).length) = elems (acc.length + 1) es ++ 0 :: r :=
      drop_after b _ _ _ _ hb2 rfl
    obtain ⟨f, rfl⟩ : ∃ g, f = g + 1 := ⟨f - 1, by omega⟩
    obtain ⟨v, hv, ev⟩ := dec_ok E hE hid e (elems (acc.length + 1) es ++ 0 :: r) f hwe hr.1 (by simp; omega)
    have hidx : ((E.strToInt k).map BitVec.toInt).getD (-1) = acc.length := by
      rw [hE acc.length (by omega)]
      simp only [Option.map_some, Option.getD_some]
      exact ofNat_toInt _ (by omega)
    have step : arrLoop E hid (f + 1) b docLen pi acc =
        if pi + 1 + k.length + 1 + (payload e).length = docLen - 1 ∧
            b[pi + 1 + k.length + 1 + (payload e).length]? = some 0 then .ok (.arr (acc ++ [v]))
        else arrLoop E hid f b docLen (pi + 1 + k.length + 1 + (payload e).length) (acc ++ [v]) := by
      rw [arrLoop, if_pos (by omega), at_drop b pi _ _ hb]
      simp only [Res.bind_ok, hb1, idxOf_key k _ hk, List.take_left, hidx, hb2, ev]
      rw [if_neg (by omega), if_neg (by simp)]
    by_cases hn : es = []
    · subst hn
      simp [elems] at hb3 hd
      refine ⟨[v], ⟨v, [], rfl, hv, rfl⟩, ?_⟩
      rw [step, if_pos]
      exact end_check b _ docLen r hb3 (by omega)
    · have hpos := elems_ne (acc.length + 1) es hn
      have hl1 : (acc ++ [v]).length = acc.length + 1 := by simp
      obtain ⟨vs, hvs, ess⟩ := decL_ok E hE hid es r b docLen (pi + 1 + k.length + 1 + (payload e).length) f
        (acc ++ [v]) (by rw [hl1]; exact hb3) (by rw [hl1]; omega) (by rw [hl1]; omega) hn hwm hr.2
        (by omega)
      refine ⟨v :: vs, ⟨v, vs, rfl, hv, hvs⟩, ?_⟩
      rw [step, if_neg (by omega), ess]
      simp
end

end Dxs.Bson
