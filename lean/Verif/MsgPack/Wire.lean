import Verif.MsgPack.Decode
import Verif.MsgPack.Robust

/-! # The language of the MessagePack decoder

What `parseMsgPackValue` (msgpackparse.go:158-328) accepts, and as which value, written as a grammar: the MessagePack specification and, marked with `loose`, the six irregularities the decoder allows itself. -/

namespace Dxs.MsgPack.Spec

/-- Items without parts. -/
def leaf : MData → Bool
  | .arr _ => false
  | .map _ => false
  | _ => true

mutual
/-- `Wire E loose v t r`: the bytes `t`, when `r` follows, stand for `v`; with `loose = false` by the specification. The irregularities are, in order: integers from 2^63 on become negative; the unused byte 0xc1 swallows the rest and
gives nil; a 64-bit timestamp may have 10^9 nanoseconds and more; an `ext 8` of the timestamp type is a 96-bit timestamp whatever length it gives, taken from the bytes that follow, be they part of it or not; other extensions
may be of the timestamp type; and (in `Pairs`) from the second pair on a name may be a byte array. -/
inductive Wire (E : Env) (loose : Bool) : Val → Bytes → Bytes → Prop
  | spec (d : MData) (v : Val) (t r : Bytes) : leaf d = true → Enc d t → Fits d → Denotes E d v → Wire E loose v t r
  | big (n : Nat) (r : Bytes) : loose = true → 2 ^ 63 ≤ n → n < 2 ^ 64 → Wire E loose (.int 0 (BitVec.ofNat 64 n)) (0xcf :: be 8 n) r
  | unused (x : Bytes) : loose = true → Wire E loose .nil (0xc1 :: x) []
  | late (sec nsec : Nat) (r : Bytes) : loose = true → sec < 2 ^ 34 → 1000000000 ≤ nsec → nsec < 2 ^ 30 →
      Wire E loose (.dateTime (E.ofUnix (BitVec.ofNat 64 sec) nsec)) (0xd7 :: 0xff :: be 8 (nsec * 2 ^ 34 + sec)) r
  | time (sec nsec : Nat) (n : UInt8) (p q r : Bytes) : loose = true → p.length = n.toNat → p ++ r = be 4 nsec ++ (be 8 sec ++ q) → nsec < 2 ^ 32 → sec < 2 ^ 64 → (n = 12 → 1000000000 ≤ nsec) →
      Wire E loose (.dateTime (E.ofUnix (BitVec.ofNat 64 sec) nsec)) (0xc7 :: n :: 0xff :: p) r
  | other (h p r : Bytes) : loose = true → ExtHdr p.length h → h.head? ≠ some 0xd6 → h.head? ≠ some 0xd7 → h.head? ≠ some 0xc7 → Wire E loose (.exbin 0 (0xff :: p)) (h ++ 0xff :: p) r
  | arr (h : Bytes) (vs : List Val) (t r : Bytes) : ArrHdr vs.length h → Wires E loose vs t r → Wire E loose (.arr vs) (h ++ t) r
  | map0 (h r : Bytes) : MapHdr 0 h → Wire E loose (.obj false []) h r
  | map (h kh k : Bytes) (w : Val) (u : Bytes) (kvs : List (Bytes × Val)) (t r : Bytes) : MapHdr (kvs.length + 1) h → StrHdr k.length kh → Wire E loose w u (t ++ r) → Pairs E loose kvs t r →
      Wire E loose (.obj true (Assoc.lastWins E.keyMatch ((k, w) :: kvs))) (h ++ (kh ++ (k ++ (u ++ t)))) r
/-- Items one after the other. -/
inductive Wires (E : Env) (loose : Bool) : List Val → Bytes → Bytes → Prop
  | nil (r : Bytes) : Wires E loose [] [] r
  | cons (v : Val) (vs : List Val) (t u r : Bytes) : Wire E loose v t (u ++ r) → Wires E loose vs u r → Wires E loose (v :: vs) (t ++ u) r
/-- Pairs one after the other. -/
inductive Pairs (E : Env) (loose : Bool) : List (Bytes × Val) → Bytes → Bytes → Prop
  | nil (r : Bytes) : Pairs E loose [] [] r
  | cons (k : Bytes) (v : Val) (kvs : List (Bytes × Val)) (h t u r : Bytes) : (StrHdr k.length h ∨ loose = true ∧ BinHdr k.length h) → Wire E loose v t (u ++ r) → Pairs E loose kvs u r →
      Pairs E loose ((k, v) :: kvs) (h ++ (k ++ (t ++ u))) r
end

end Spec

open Spec
variable {E : Env}

/-! ## From the grammar to the decoder -/

theorem denotes_leaf {d : MData} {v w : Val} (h : leaf d = true) (h1 : Denotes E d v) (h2 : Denotes E d w) : v = w := by
  cases d with
  | arr | map => cases h
  | int n =>
    obtain ⟨c, rfl, hc⟩ := h1
    obtain ⟨c', rfl, hc'⟩ := h2
    rw [BitVec.eq_of_toInt_eq (hc.trans hc'.symm)]
  | _ => rw [Denotes] at h1 h2; rw [h1, h2]

theorem name_dec {k h : Bytes} {loose : Bool} (hh : StrHdr k.length h ∨ loose = true ∧ BinHdr k.length h) : ∃ c h', h = c :: h' ∧ ∀ r, parseLen c (h' ++ r) = .ok (k.length, r) := by
  rcases hh with hh | ⟨_, hh⟩
  · obtain ⟨c, h', e, _, hl⟩ := strHdr_dec hh; exact ⟨c, h', e, hl⟩
  · obtain ⟨c, h', e, _, hl⟩ := binHdr_dec hh; exact ⟨c, h', e, hl⟩

mutual
theorem wire_parse {loose : Bool} : ∀ {v : Val} {t r : Bytes}, Wire E loose v t r → ∀ f, t.length ≤ f → parseValue E (f + 1) (t ++ r) = .ok (v, r)
  | _, _, _, .spec d v t r hl he hf hd, f, hle => by
    obtain ⟨v', hv, e⟩ := dec_ok E d t r f he hf hle
    rw [denotes_leaf hl hd hv]; exact e
  | _, _, _, .big n r _ _ h2, f, hle => by
    rw [List.cons_append]
    simp [parseValue, readCode, isStr, isArray, isMap, isFixedNum, parseUint64_be n h2]
  | _, _, _, .unused x _, f, hle => by
    rw [List.append_nil]
    simp [parseValue, readCode, isStr, isArray, isMap, isFixedNum, isBin, isExt]
  | _, _, _, .late sec nsec r _ h1 h2 h3, f, hle => by
    rw [List.cons_append, pv_ext (by simp)]
    have e := goUint64_be (nsec * 2 ^ 34 + sec) (by omega) r
    have l := be_length 8 (nsec * 2 ^ 34 + sec)
    have m : ∀ x : Nat, x &&& 17179869183 = x % 17179869184 := fun x => Nat.and_two_pow_sub_one_eq_mod x 34
    simp only [parseExt, parseExtLen, isTime, parseTime, sliceFrom, m, Nat.shiftRight_eq_div_pow]
    simp [e, l]
    rw [if_neg (by omega), show sec % 17179869184 = sec by omega, show (nsec * 17179869184 + sec) / 17179869184 = nsec by omega]
  | _, _, _, .time sec nsec n p q r _ h1 h2 h3 h4 _, f, hle => by
    rw [List.cons_append, pv_ext (by simp)]
    have e := goUint32_be nsec h3 (be 8 sec ++ q)
    have e2 := goUint64_be sec h4 q
    have l := be_length 4 nsec
    have l2 := be_length 8 sec
    have hlen : (p ++ r).length = 12 + q.length := by rw [h2]; simp [l, l2]; omega
    have hd4 : (p ++ r).drop 4 = be 8 sec ++ q := by rw [h2]; simp [l]
    rw [← h2] at e
    rw [← hd4] at e2
    have x1 : sliceFrom 1 (0xff :: (p ++ r)) = .ok (p ++ r) := by simp [sliceFrom]
    have x5 : sliceFrom 5 (0xff :: (p ++ r)) = .ok ((p ++ r).drop 4) := by
      unfold sliceFrom; rw [if_pos (by simp only [List.length_cons]; omega)]; rfl
    have xn : sliceFrom (n.toNat + 1) (0xff :: (p ++ r)) = .ok r := by
      unfold sliceFrom
      rw [if_pos (by simp only [List.length_cons, List.length_append]; omega), ← h1, List.drop_succ_cons, List.drop_left]
    have hnl : ¬ ((0xff : UInt8) :: (p ++ r)).length < n.toNat := by simp only [List.length_cons, List.length_append]; omega
    unfold parseExt parseExtLen
    simp only [List.cons_append, parseUint8, isTime, parseTime, Res.bind_ok, show ((0xc7 : UInt8) == 0xd4) = false from rfl, show ((0xc7 : UInt8) == 0xd5) = false from rfl, show ((0xc7 : UInt8) == 0xd6) = false from rfl,
      show ((0xc7 : UInt8) == 0xd7) = false from rfl, show ((0xc7 : UInt8) == 0xd8) = false from rfl, show ((0xc7 : UInt8) == 0xc7) = true from rfl, show ((0xff : UInt8) == 0xff) = true from rfl,
      Bool.false_eq_true, if_false, if_true, Bool.or_true, Bool.and_true, Bool.false_or]
    rw [if_neg hnl, xn]
    simp only [Res.bind_ok, x1, x5, e, e2]
  | _, _, _, .other h p r _ hh h1 h2 h3, f, hle => by
    obtain ⟨c, h', rfl, hs, hl⟩ := extHdr_dec hh
    simp only [List.head?_cons, ne_eq, Option.some.injEq] at h1 h2 h3
    rw [List.append_assoc, List.cons_append, pv_ext hs]
    simp [parseExt, hl, sliceFrom, isTime, h1, h2, h3]
    omega
  | _, _, _, .arr h vs t r hh hw, f, hle => by
    obtain ⟨c, h', rfl, h1, h2, h3⟩ := arrHdr_dec hh
    simp at hle
    obtain ⟨f, rfl⟩ : ∃ g, f = g + 1 := ⟨f - 1, by omega⟩
    have e := wires_parse hw f (by omega)
    rw [List.append_assoc, List.cons_append, pv_arr h1 h2]
    simp [parseArray, h3, e]
  | _, _, _, .map0 h r hh, f, hle => by
    obtain ⟨c, h', rfl, h1, h2, h3, h4⟩ := mapHdr_dec hh
    rw [List.cons_append, pv_map h1 h2 h3]
    simp [parseObject, h4]
  | _, _, _, .map h kh k w u kvs t r hh hk hw hp, f, hle => by
    obtain ⟨c, h', rfl, h1, h2, h3, h4⟩ := mapHdr_dec hh
    obtain ⟨c2, k', rfl, g1, g2⟩ := strHdr_dec hk
    simp at hle
    obtain ⟨f, rfl⟩ : ∃ g, f = g + 1 := ⟨f - 1, by omega⟩
    have e := wire_parse hw f (by omega)
    have es := pairs_parse hp f (by omega) (Assoc.put E.keyMatch [] k w)
    rw [List.append_assoc, List.cons_append, pv_map h1 h2 h3]
    simp only [parseObject, h4, Res.bind_ok, Nat.add_one_ne_zero, if_false, List.cons_append, g1, Bool.not_true, Bool.false_eq_true]
    simp only [parseMembers, readCode, Res.bind_ok, List.append_assoc]
    rw [parseStr_of_len (g2 _)]
    simp only [Res.bind_ok, e, setKeyValueObj_put (Or.inr rfl), es]
    rfl
theorem wires_parse {loose : Bool} : ∀ {vs : List Val} {t r : Bytes}, Wires E loose vs t r → ∀ f, t.length ≤ f → parseElems (parseValue E (f + 1)) vs.length (t ++ r) = .ok (vs, r)
  | _, _, _, .nil r, f, _ => rfl
  | _, _, _, .cons v vs t u r hv hvs, f, hle => by
    simp at hle
    have e := wire_parse hv f (by omega)
    have es := wires_parse hvs f (by omega)
    simp [parseElems, List.append_assoc, e, es]
theorem pairs_parse {loose : Bool} : ∀ {kvs : List (Bytes × Val)} {t r : Bytes}, Pairs E loose kvs t r → ∀ f, t.length ≤ f → ∀ acc : List (Bytes × Val),
    parseMembers E (parseValue E (f + 1)) kvs.length true acc (t ++ r) = .ok (.obj true (Assoc.putAll E.keyMatch acc kvs), r)
  | _, _, _, .nil r, f, _, acc => by simp [parseMembers, Assoc.putAll]
  | _, _, _, .cons k v kvs h t u r hk hv hvs, f, hle, acc => by
    obtain ⟨c, h', rfl, g2⟩ := name_dec hk
    simp at hle
    have e := wire_parse hv f (by omega)
    have es := pairs_parse hvs f (by omega) (Assoc.put E.keyMatch acc k v)
    simp only [parseMembers, List.length_cons, List.append_assoc, List.cons_append, readCode, Res.bind_ok]
    rw [parseStr_of_len (g2 _)]
    simp only [Res.bind_ok, e, setKeyValueObj_put (Or.inl rfl), es]
    simp [Assoc.putAll]
end

/-! ## From the decoder to the grammar -/

theorem u8_eq {x : UInt8} {n : Nat} (h : n % 256 = x.toNat) : UInt8.ofNat n = x := by
  rw [← UInt8.toNat_inj]; simpa using h

theorem uint8_inv {b t : Bytes} {n : Nat} (h : parseUint8 b = .ok (n, t)) : b = be 1 n ++ t ∧ n < 2 ^ 8 := by
  cases b with
  | nil => cases h
  | cons x b =>
    cases h; have := x.toNat_lt
    exact ⟨by simp [be], by omega⟩

theorem uint16_inv {b t : Bytes} {n : Nat} (h : parseUint16 b = .ok (n, t)) : b = be 2 n ++ t ∧ n < 2 ^ 16 := by
  rcases b with _ | ⟨x, _ | ⟨y, b⟩⟩ <;> cases h
  have := x.toNat_lt; have := y.toNat_lt
  rw [be16_eq]
  refine ⟨?_, by omega⟩
  simp only [be, List.cons_append, List.nil_append]
  rw [u8_eq (x := x) (by omega), u8_eq (x := y) (by omega)]

theorem uint32_inv {b t : Bytes} {n : Nat} (h : parseUint32 b = .ok (n, t)) : b = be 4 n ++ t ∧ n < 2 ^ 32 := by
  rcases b with _ | ⟨x, _ | ⟨y, _ | ⟨z, _ | ⟨w, b⟩⟩⟩⟩ <;> cases h
  have := x.toNat_lt; have := y.toNat_lt; have := z.toNat_lt; have := w.toNat_lt
  rw [be32_eq]
  refine ⟨?_, by omega⟩
  simp only [be, List.cons_append, List.nil_append]
  rw [u8_eq (x := x) (by omega), u8_eq (x := y) (by omega), u8_eq (x := z) (by omega), u8_eq (x := w) (by omega)]

theorem uint64_inv {b t : Bytes} {n : Nat} (h : parseUint64 b = .ok (n, t)) : b = be 8 n ++ t ∧ n < 2 ^ 64 := by
  rcases b with _ | ⟨x, _ | ⟨y, _ | ⟨z, _ | ⟨w, _ | ⟨x', _ | ⟨y', _ | ⟨z', _ | ⟨w', b⟩⟩⟩⟩⟩⟩⟩⟩ <;> cases h
  have := x.toNat_lt; have := y.toNat_lt; have := z.toNat_lt; have := w.toNat_lt
  have := x'.toNat_lt; have := y'.toNat_lt; have := z'.toNat_lt; have := w'.toNat_lt
  rw [be64_eq]
  refine ⟨?_, by omega⟩
  simp only [be, List.cons_append, List.nil_append]
  rw [u8_eq (x := x) (by omega), u8_eq (x := y) (by omega), u8_eq (x := z) (by omega), u8_eq (x := w) (by omega),
    u8_eq (x := x') (by omega), u8_eq (x := y') (by omega), u8_eq (x := z') (by omega), u8_eq (x := w') (by omega)]

theorem goUint32_inv {b : Bytes} {n : Nat} (h : goUint32 b = .ok n) : ∃ t, b = be 4 n ++ t ∧ n < 2 ^ 32 := by
  rcases b with _ | ⟨x, _ | ⟨y, _ | ⟨z, _ | ⟨w, b⟩⟩⟩⟩ <;> first | cases h
  exact ⟨b, uint32_inv rfl⟩

theorem goUint64_inv {b : Bytes} {n : Nat} (h : goUint64 b = .ok n) : ∃ t, b = be 8 n ++ t ∧ n < 2 ^ 64 := by
  rcases b with _ | ⟨x, _ | ⟨y, _ | ⟨z, _ | ⟨w, _ | ⟨x', _ | ⟨y', _ | ⟨z', _ | ⟨w', b⟩⟩⟩⟩⟩⟩⟩⟩ <;> first | cases h
  exact ⟨b, uint64_inv rfl⟩

theorem len_hdr {c : UInt8} {b t : Bytes} {n : Nat} (h : parseLen c b = .ok (n, t)) : ∃ h', b = h' ++ t ∧ ((isBin c = false ∧ StrHdr n (c :: h')) ∨ (isStr c = false ∧ BinHdr n (c :: h'))) := by
  unfold parseLen at h
  split at h
  · rename_i hf
    cases h
    refine ⟨[], rfl, .inl ⟨?_, .inl ⟨?_, ?_⟩⟩⟩
    · simp [isFixedStr] at hf; simp [isBin]; omega
    · rw [and_mask]; omega
    · rw [and_mask, u8_eq (x := c)]; simp [isFixedStr] at hf; omega
  split at h
  · rename_i hc
    obtain ⟨rfl, hn⟩ := uint8_inv h
    rcases (by simpa using hc : c = 0xd9 ∨ c = 0xc4) with rfl | rfl
    · exact ⟨_, rfl, .inl ⟨rfl, .inr (.inl ⟨hn, rfl⟩)⟩⟩
    · exact ⟨_, rfl, .inr ⟨rfl, .inl ⟨hn, rfl⟩⟩⟩
  split at h
  · rename_i hc
    obtain ⟨rfl, hn⟩ := uint16_inv h
    rcases (by simpa using hc : c = 0xda ∨ c = 0xc5) with rfl | rfl
    · exact ⟨_, rfl, .inl ⟨rfl, .inr (.inr (.inl ⟨hn, rfl⟩))⟩⟩
    · exact ⟨_, rfl, .inr ⟨rfl, .inr (.inl ⟨hn, rfl⟩)⟩⟩
  split at h
  · rename_i hc
    obtain ⟨rfl, hn⟩ := uint32_inv h
    rcases (by simpa using hc : c = 0xdb ∨ c = 0xc6) with rfl | rfl
    · exact ⟨_, rfl, .inl ⟨rfl, .inr (.inr (.inr ⟨hn, rfl⟩))⟩⟩
    · exact ⟨_, rfl, .inr ⟨rfl, .inr (.inr ⟨hn, rfl⟩)⟩⟩
  · cases h

theorem extLen_hdr {c : UInt8} {b t : Bytes} {n : Nat} (h : parseExtLen c b = .ok (n, t)) : ∃ h', b = h' ++ t ∧ ExtHdr n (c :: h') := by
  unfold parseExtLen at h
  split at h
  · rename_i hc; cases h; rw [eq_of_beq hc]; exact ⟨[], rfl, .inl ⟨rfl, rfl⟩⟩
  split at h
  · rename_i hc; cases h; rw [eq_of_beq hc]; exact ⟨[], rfl, .inr (.inl ⟨rfl, rfl⟩)⟩
  split at h
  · rename_i hc; cases h; rw [eq_of_beq hc]; exact ⟨[], rfl, .inr (.inr (.inl ⟨rfl, rfl⟩))⟩
  split at h
  · rename_i hc; cases h; rw [eq_of_beq hc]; exact ⟨[], rfl, .inr (.inr (.inr (.inl ⟨rfl, rfl⟩)))⟩
  split at h
  · rename_i hc; cases h; rw [eq_of_beq hc]; exact ⟨[], rfl, .inr (.inr (.inr (.inr (.inl ⟨rfl, rfl⟩))))⟩
  split at h
  · rename_i hc; obtain ⟨rfl, hn⟩ := uint8_inv h; rw [eq_of_beq hc]; exact ⟨_, rfl, .inr (.inr (.inr (.inr (.inr (.inl ⟨hn, rfl⟩)))))⟩
  split at h
  · rename_i hc; obtain ⟨rfl, hn⟩ := uint16_inv h; rw [eq_of_beq hc]; exact ⟨_, rfl, .inr (.inr (.inr (.inr (.inr (.inr (.inl ⟨hn, rfl⟩))))))⟩
  split at h
  · rename_i hc; obtain ⟨rfl, hn⟩ := uint32_inv h; rw [eq_of_beq hc]; exact ⟨_, rfl, .inr (.inr (.inr (.inr (.inr (.inr (.inr ⟨hn, rfl⟩))))))⟩
  · cases h

theorem mapErr_inv {α : Type} {e : Err} {x : Res α} {a : α} (h : mapErr e x = .ok a) : x = .ok a := by
  cases x <;> first | exact h | cases h

theorem mapLen_hdr {c : UInt8} {b t : Bytes} {n : Nat} (h : parseMapLen c b = .ok (n, t)) : ∃ h', b = h' ++ t ∧ MapHdr n (c :: h') := by
  unfold parseMapLen at h
  split at h
  · rename_i hc
    cases h
    simp at hc
    refine ⟨[], rfl, .inl ⟨by rw [and_mask4]; omega, ?_⟩⟩
    rw [and_mask4, u8_eq (x := c)]; omega
  split at h
  · rename_i hc; obtain ⟨rfl, hn⟩ := uint16_inv (mapErr_inv h); rw [eq_of_beq hc]; exact ⟨_, rfl, .inr (.inl ⟨hn, rfl⟩)⟩
  split at h
  · rename_i hc; obtain ⟨rfl, hn⟩ := uint32_inv (mapErr_inv h); rw [eq_of_beq hc]; exact ⟨_, rfl, .inr (.inr ⟨hn, rfl⟩)⟩
  · cases h

theorem arrLen_hdr {c : UInt8} {b t : Bytes} {n : Nat} (h : parseArrLen c b = .ok (n, t)) : ∃ h', b = h' ++ t ∧ ArrHdr n (c :: h') := by
  unfold parseArrLen at h
  split at h
  · rename_i hc
    cases h
    simp at hc
    refine ⟨[], rfl, .inl ⟨by rw [and_mask4]; omega, ?_⟩⟩
    rw [and_mask4, u8_eq (x := c)]; omega
  split at h
  · rename_i hc; obtain ⟨rfl, hn⟩ := uint16_inv h; rw [eq_of_beq hc]; exact ⟨_, rfl, .inr (.inl ⟨hn, rfl⟩)⟩
  split at h
  · rename_i hc; obtain ⟨rfl, hn⟩ := uint32_inv h; rw [eq_of_beq hc]; exact ⟨_, rfl, .inr (.inr ⟨hn, rfl⟩)⟩
  · cases h

theorem str_inv {c : UInt8} {b s t : Bytes} (h : parseStr c b = .ok (s, t)) :
    ∃ h', b = h' ++ (s ++ t) ∧ ((isBin c = false ∧ StrHdr s.length (c :: h')) ∨ (isStr c = false ∧ BinHdr s.length (c :: h'))) := by
  unfold parseStr at h
  replace h := Res.bind_eq_ok.1 h
  obtain ⟨⟨n, b1⟩, h1, h⟩ := h
  obtain ⟨h', rfl, hh⟩ := len_hdr (mapErr_inv h1)
  dsimp only at h
  split at h
  · rename_i hn; cases h; subst hn; exact ⟨h', rfl, hh⟩
  split at h
  · rename_i hn; cases h
    refine ⟨h', by rw [List.take_append_drop], ?_⟩
    rw [List.length_take, Nat.min_eq_left hn]; exact hh
  · cases h

theorem elems_wires {p : Bytes → Res (Val × Bytes)} (hp : ∀ b v r, p b = .ok (v, r) → ∃ t, b = t ++ r ∧ Wire E true v t r) : ∀ (n : Nat) (b : Bytes) (vs : List Val) (r : Bytes),
    parseElems p n b = .ok (vs, r) → vs.length = n ∧ ∃ t, b = t ++ r ∧ Wires E true vs t r
  | 0, _, _, _, e => by cases e; exact ⟨rfl, [], rfl, .nil _⟩
  | n + 1, b, vs, r, e => by
    rw [parseElems] at e
    replace e := Res.bind_eq_ok.1 e
    obtain ⟨⟨v, b1⟩, h1, e⟩ := e
    replace e := Res.bind_eq_ok.1 e
    obtain ⟨⟨ws, b2⟩, h2, e⟩ := e
    cases e
    obtain ⟨t, rfl, ht⟩ := hp _ _ _ h1
    obtain ⟨hl, u, rfl, hu⟩ := elems_wires hp n b1 ws _ h2
    exact ⟨by simp [hl], t ++ u, by simp, .cons _ _ _ _ _ ht hu⟩

theorem name_inv {c : UInt8} {k h' : Bytes} (h : (isBin c = false ∧ StrHdr k.length (c :: h')) ∨ (isStr c = false ∧ BinHdr k.length (c :: h'))) : StrHdr k.length (c :: h') ∨ true = true ∧ BinHdr k.length (c :: h') :=
  h.elim (fun h => .inl h.2) (fun h => .inr ⟨rfl, h.2⟩)

theorem members_pairs {p : Bytes → Res (Val × Bytes)} (hp : ∀ b v r, p b = .ok (v, r) → ∃ t, b = t ++ r ∧ Wire E true v t r) : ∀ (n : Nat) (acc : List (Bytes × Val)) (b : Bytes) (v : Val) (r : Bytes),
    parseMembers E p n true acc b = .ok (v, r) → ∃ kvs t, kvs.length = n ∧ b = t ++ r ∧ v = .obj true (Assoc.putAll E.keyMatch acc kvs) ∧ Pairs E true kvs t r
  | 0, acc, _, _, _, e => by cases e; exact ⟨[], [], rfl, rfl, rfl, .nil _⟩
  | n + 1, acc, b, v, r, e => by
    rw [parseMembers] at e
    replace e := Res.bind_eq_ok.1 e
    obtain ⟨⟨c, b1⟩, h0, e⟩ := e
    replace e := Res.bind_eq_ok.1 e
    obtain ⟨⟨k, b2⟩, h2, e⟩ := e
    replace e := Res.bind_eq_ok.1 e
    obtain ⟨⟨w, b3⟩, h3, e⟩ := e
    dsimp only at e h2 h3
    rw [setKeyValueObj_put (Or.inl rfl)] at e
    cases b with
    | nil => cases h0
    | cons x b =>
      cases h0
      obtain ⟨h', rfl, hk⟩ := str_inv h2
      obtain ⟨t, rfl, ht⟩ := hp _ _ _ h3
      obtain ⟨kvs, u, hl, rfl, rfl, hu⟩ := members_pairs hp n _ b3 v r e
      exact ⟨(k, w) :: kvs, (c :: h') ++ (k ++ (t ++ u)), by simp [hl], by simp, rfl, .cons _ _ _ _ _ _ _ (name_inv hk) ht hu⟩

theorem sx8_val {m : Nat} (h : m < 256) : (sx8 m).toInt = if m < 128 then (m : Int) else m - 256 := by
  unfold sx8
  rw [BitVec.toInt_signExtend_of_le (by omega), BitVec.toInt_eq_toNat_cond, BitVec.toNat_ofNat]
  split <;> split <;> omega

theorem sx16_val {m : Nat} (h : m < 65536) : (sx16 m).toInt = if m < 32768 then (m : Int) else m - 65536 := by
  unfold sx16
  rw [BitVec.toInt_signExtend_of_le (by omega), BitVec.toInt_eq_toNat_cond, BitVec.toNat_ofNat]
  split <;> split <;> omega

theorem sx32_val {m : Nat} (h : m < 4294967296) : (sx32 m).toInt = if m < 2147483648 then (m : Int) else m - 4294967296 := by
  unfold sx32
  rw [BitVec.toInt_signExtend_of_le (by omega), BitVec.toInt_eq_toNat_cond, BitVec.toNat_ofNat]
  split <;> split <;> omega

theorem ofNat_val {m : Nat} (h : m < 2 ^ 64) : (BitVec.ofNat 64 m).toInt = if m < 2 ^ 63 then (m : Int) else m - 2 ^ 64 := by
  rw [BitVec.toInt_eq_toNat_cond, BitVec.toNat_ofNat]
  split <;> split <;> omega

theorem int_wire {c : BitVec 64} {t r : Bytes} (h : IntFmt c.toInt t) : Wire E true (.int 0 c) t r :=
  .spec (.int c.toInt) _ _ _ rfl h ⟨by have := BitVec.le_toInt c; simpa using this, by have := BitVec.toInt_lt (x := c); simpa using this⟩ ⟨c, rfl, rfl⟩

theorem ite_ok2 {α : Type} {P : α → Prop} {c : Prop} [Decidable c] {x y : Res α} (h1 : c → ∀ a, x = .ok a → P a) (h2 : ¬c → ∀ a, y = .ok a → P a) :
    ∀ a, (if c then x else y) = .ok a → P a := by
  split
  · exact h1 ‹_›
  · exact h2 ‹_›

theorem slice_inv {n : Nat} {b t : Bytes} (h : sliceFrom n b = .ok t) : n ≤ b.length ∧ t = b.drop n := by
  unfold sliceFrom at h
  split at h
  · cases h; exact ⟨‹_›, rfl⟩
  · cases h

theorem ext_wire {c : UInt8} {b r : Bytes} {v : Val} (h : parseExt E c b = .ok (v, r)) : ∃ t, c :: b = t ++ r ∧ Wire E true v t r := by
  unfold parseExt at h
  replace h := Res.bind_eq_ok.1 h
  obtain ⟨⟨n, b1⟩, h1, h⟩ := h
  obtain ⟨h', rfl, hh⟩ := extLen_hdr h1
  dsimp only at h
  split at h
  · cases h
  replace h := Res.bind_eq_ok.1 h
  obtain ⟨tl, h2, h⟩ := h
  obtain ⟨hlen, rfl⟩ := slice_inv h2
  cases b1 with
  | nil => simp at hlen
  | cons ty b1 =>
    simp only [List.length_cons, Nat.add_le_add_iff_right] at hlen
    rw [List.drop_succ_cons] at h
    have hp : (b1.take n).length = n := by rw [List.length_take]; omega
    have hb : c :: (h' ++ ty :: b1) = ((c :: h') ++ ty :: b1.take n) ++ b1.drop n := by simp
    dsimp only at h
    split at h
    · rename_i ht
      simp only [isTime, Bool.and_eq_true, beq_iff_eq, Bool.or_eq_true] at ht
      obtain ⟨rfl, ht⟩ := ht
      replace h := Res.bind_eq_ok.1 h
      obtain ⟨x, hx, h⟩ := h
      cases h
      refine ⟨_, hb, ?_⟩
      have x1 : sliceFrom 1 ((0xff : UInt8) :: b1) = .ok b1 := by simp [sliceFrom]
      unfold parseTime at hx
      rw [x1] at hx
      rcases ht with (rfl | rfl) | rfl
      · rw [if_pos (by decide)] at hx
        simp only [Res.bind_ok] at hx
        replace hx := Res.bind_eq_ok.1 hx
        obtain ⟨sec, hs, hx⟩ := hx
        cases hx
        obtain ⟨q, rfl, hq⟩ := goUint32_inv hs
        rcases hh with ⟨_, hh⟩ | ⟨_, hh⟩ | ⟨rfl, hh⟩ | ⟨_, hh⟩ | ⟨_, hh⟩ | ⟨_, hh⟩ | ⟨_, hh⟩ | ⟨_, hh⟩ <;> first | (simp at hh; done) | skip
        cases hh
        rw [List.take_left' (be_length 4 sec), List.drop_left' (be_length 4 sec)]
        refine .spec (.ts sec 0) _ _ _ rfl (.inl ⟨by omega, by omega, rfl, rfl⟩) trivial ?_
        show _ = _
        rw [show BitVec.ofInt 64 (sec : Int) = BitVec.ofNat 64 sec from rfl]
      · rw [if_neg (by decide), if_pos (by decide)] at hx
        simp only [Res.bind_ok] at hx
        replace hx := Res.bind_eq_ok.1 hx
        obtain ⟨w, hs, hx⟩ := hx
        cases hx
        obtain ⟨q, rfl, hq⟩ := goUint64_inv hs
        rcases hh with ⟨_, hh⟩ | ⟨_, hh⟩ | ⟨_, hh⟩ | ⟨rfl, hh⟩ | ⟨_, hh⟩ | ⟨_, hh⟩ | ⟨_, hh⟩ | ⟨_, hh⟩ <;> first | (simp at hh; done) | skip
        cases hh
        rw [List.take_left' (be_length 8 w), List.drop_left' (be_length 8 w)]
        rw [show w &&& 0x00000003ffffffff = w % 2 ^ 34 from Nat.and_two_pow_sub_one_eq_mod w 34, Nat.shiftRight_eq_div_pow]
        have hw : w = w / 2 ^ 34 * 2 ^ 34 + w % 2 ^ 34 := by omega
        by_cases hn : w / 2 ^ 34 < 1000000000
        · refine .spec (.ts ((w % 2 ^ 34 : Nat) : Int) (w / 2 ^ 34)) _ _ _ rfl (.inr (.inl ⟨by omega, by omega, hn, ?_⟩)) trivial ?_
          · rw [Int.toNat_natCast, ← hw]; rfl
          · show _ = _
            rfl
        · have := Wire.late (E := E) (loose := true) (w % 2 ^ 34) (w / 2 ^ 34) q rfl (by omega) (by omega) (by omega)
          rw [← hw] at this
          exact this
      · rw [if_neg (by decide), if_neg (by decide)] at hx
        simp only [Res.bind_ok] at hx
        replace hx := Res.bind_eq_ok.1 hx
        obtain ⟨nsec, hs, hx⟩ := hx
        replace hx := Res.bind_eq_ok.1 hx
        obtain ⟨b5, h5, hx⟩ := hx
        replace hx := Res.bind_eq_ok.1 hx
        obtain ⟨sec, hs2, hx⟩ := hx
        cases hx
        obtain ⟨_, rfl⟩ := slice_inv h5
        rw [List.drop_succ_cons] at hs2
        obtain ⟨q, rfl, hq⟩ := goUint32_inv hs
        rw [List.drop_left' (be_length 4 nsec)] at hs2
        obtain ⟨q2, rfl, hq2⟩ := goUint64_inv hs2
        rcases hh with ⟨_, hh⟩ | ⟨_, hh⟩ | ⟨_, hh⟩ | ⟨_, hh⟩ | ⟨_, hh⟩ | ⟨hn, hh⟩ | ⟨_, hh⟩ | ⟨_, hh⟩ <;> first | (simp at hh; done) | skip
        cases hh
        have hn8 : (UInt8.ofNat n).toNat = n := by simp; omega
        have hbe : be 1 n = [UInt8.ofNat n] := by simp [be]
        rw [hbe]
        by_cases h12 : n = 12 ∧ nsec < 1000000000
        · obtain ⟨rfl, hns⟩ := h12
          have l : (be 4 nsec ++ be 8 sec).length = 12 := by simp [be_length]
          rw [← List.append_assoc, List.take_left' l, List.drop_left' l]
          have hc := ofNat_val hq2
          have hemod : ((BitVec.ofNat 64 sec).toInt % (256 ^ 8 : Int)).toNat = sec := by rw [hc]; split <;> omega
          refine .spec (.ts (BitVec.ofNat 64 sec).toInt nsec) _ _ _ rfl (.inr (.inr ⟨?_, ?_, hns, ?_⟩)) trivial ?_
          · rw [hc]; split <;> omega
          · rw [hc]; split <;> omega
          · rw [beI, hemod]; rfl
          · show _ = _
            rw [BitVec.ofInt_toInt]
        · have := Wire.time (E := E) (loose := true) sec nsec (UInt8.ofNat n) (List.take n (be 4 nsec ++ (be 8 sec ++ q2))) q2 (List.drop n (be 4 nsec ++ (be 8 sec ++ q2))) rfl (by rw [hp, hn8])
            (List.take_append_drop _ _) hq hq2 (by
              intro h
              have : n = 12 := by rw [← hn8, h]; rfl
              omega)
          exact this
    · rename_i ht
      cases h
      refine ⟨_, hb, ?_⟩
      rw [List.take_succ_cons]
      by_cases hty : ty = 0xff
      · subst hty
        simp only [isTime, beq_self_eq_true, Bool.true_and, Bool.or_eq_true, beq_iff_eq, not_or] at ht
        refine .other (c :: h') _ _ rfl (by rw [hp]; exact hh) ?_ ?_ ?_ <;> simp [ht]
      · exact .spec (.ext ty (b1.take n)) _ _ _ rfl ⟨c :: h', by rw [hp]; exact hh, hty, rfl⟩ trivial rfl

/-- Every first byte but `0xc1` belongs to one of the families. -/
theorem codes_all (c : UInt8) : (isStr c || isArray c || isMap c || isFixedNum c || c == 0xcc || c == 0xd0 || c == 0xcd || c == 0xd1 || c == 0xce || c == 0xd2 || (c == 0xd3 || c == 0xcf) || c == 0xca ||
    c == 0xcb || c == 0xc3 || c == 0xc2 || c == 0xc0 || isBin c || isExt c || c == 0xc1) = true := by
  obtain ⟨⟨c⟩⟩ := c
  revert c
  decide +kernel

theorem parse_wire : ∀ (f : Nat) (b : Bytes) (v : Val) (r : Bytes), parseValue E f b = .ok (v, r) → ∃ t, b = t ++ r ∧ Wire E true v t r
  | 0, _, _, _, h => by cases h
  | f + 1, [], _, _, h => by simp [parseValue, readCode] at h
  | f + 1, c :: b, v, r, h => by
    have hp := parse_wire f
    have one : ∀ (d : MData) (v : Val) (t : Bytes), leaf d = true → Enc d [c] → Fits d → Denotes E d v → ∀ x, (Res.ok (v, b)) = .ok x → ∃ t, c :: b = t ++ x.2 ∧ Wire E true x.1 t x.2 := by
      intro d v t h1 h2 h3 h4 x h; cases h; exact ⟨[c], rfl, .spec d _ _ _ h1 h2 h3 h4⟩
    have key : ∀ x, parseValue E (f + 1) (c :: b) = .ok x → ∃ t, c :: b = t ++ x.2 ∧ Wire E true x.1 t x.2 := by
      clear h
      unfold parseValue
      simp only [readCode, Res.bind_ok]
      refine ite_ok2 (P := fun x : Val × Bytes => ∃ t, c :: b = t ++ x.2 ∧ Wire E true x.1 t x.2) ?_ (fun n1 => ite_ok2 ?_ (fun n2 => ite_ok2 ?_ (fun n3 => ite_ok2 ?_ (fun n4 => ?_))))
      · intro hc x h
        replace h := Res.bind_eq_ok.1 h
        obtain ⟨⟨s, b1⟩, h1, h⟩ := h
        cases h
        obtain ⟨h', rfl, ⟨_, hh⟩ | ⟨hs, _⟩⟩ := str_inv h1
        · exact ⟨(c :: h') ++ s, by simp, .spec (.str s) _ _ _ rfl ⟨_, hh, rfl⟩ trivial rfl⟩
        · rw [hc] at hs; cases hs
      · intro hc x h
        unfold parseArray at h
        replace h := Res.bind_eq_ok.1 h
        obtain ⟨⟨n, b1⟩, h1, h⟩ := h
        replace h := Res.bind_eq_ok.1 h
        obtain ⟨⟨vs, b2⟩, h2, h⟩ := h
        cases h
        obtain ⟨h', rfl, hh⟩ := arrLen_hdr h1
        obtain ⟨rfl, t, rfl, ht⟩ := elems_wires hp _ _ _ _ h2
        exact ⟨(c :: h') ++ t, by simp, .arr _ _ _ _ hh ht⟩
      · rintro hc ⟨v, r⟩ h
        unfold parseObject at h
        replace h := Res.bind_eq_ok.1 h
        obtain ⟨⟨n, b1⟩, h1, h⟩ := h
        obtain ⟨h', rfl, hh⟩ := mapLen_hdr h1
        dsimp only at h
        split at h
        · rename_i hn; cases h; subst hn; exact ⟨c :: h', rfl, .map0 _ _ hh⟩
        · rename_i hn
          split at h
          · cases h
          · rename_i k0 b2
            split at h
            · cases h
            · rename_i hk0
              obtain ⟨n, rfl⟩ := Nat.exists_eq_succ_of_ne_zero hn
              rw [Nat.succ_eq_add_one, parseMembers] at h
              simp only [readCode, Res.bind_ok] at h
              replace h := Res.bind_eq_ok.1 h
              obtain ⟨⟨k, b3⟩, h2, h⟩ := h
              replace h := Res.bind_eq_ok.1 h
              obtain ⟨⟨w, b4⟩, h3, h⟩ := h
              dsimp only at h h2 h3
              rw [setKeyValueObj_put (Or.inr rfl)] at h
              obtain ⟨k', rfl, ⟨_, hk⟩ | ⟨hs, _⟩⟩ := str_inv h2
              · obtain ⟨u, rfl, hu⟩ := hp _ _ _ h3
                obtain ⟨kvs, t, hl, rfl, rfl, ht⟩ := members_pairs hp n _ b4 v r h
                subst hl
                exact ⟨(c :: h') ++ ((k0 :: k') ++ (k ++ (u ++ t))), by simp, .map _ _ _ _ _ _ _ _ hh hk hu ht⟩
              · rw [hs] at hk0; simp at hk0
      · intro hc x h
        cases h
        refine ⟨[c], rfl, int_wire ?_⟩
        have hlt := c.toNat_lt
        rw [sx8_val (by omega)]
        simp only [isFixedNum, Bool.or_eq_true, decide_eq_true_eq] at hc
        split
        · exact .inl ⟨by omega, by omega, by rw [Int.toNat_natCast, u8_eq (x := c) (by omega)]⟩
        · exact .inr (.inl ⟨by omega, by omega, by rw [u8_eq (x := c) (by omega)]⟩)
      refine ite_ok2 ?_ (fun n5 => ?_)
      · rintro hc x h
        replace h := Res.bind_eq_ok.1 h
        obtain ⟨⟨u, b1⟩, h1, h⟩ := h
        cases h
        obtain ⟨rfl, hu⟩ := uint8_inv h1
        refine ⟨c :: be 1 u, rfl, int_wire ?_⟩
        rw [ofNat_val (by omega), if_pos (by omega), eq_of_beq hc]
        exact .inr (.inr (.inl ⟨by omega, by omega, rfl⟩))
      refine ite_ok2 ?_ (fun n6 => ?_)
      · rintro hc x h
        replace h := Res.bind_eq_ok.1 h
        obtain ⟨⟨u, b1⟩, h1, h⟩ := h
        cases h
        obtain ⟨rfl, hu⟩ := uint8_inv h1
        refine ⟨c :: be 1 u, rfl, int_wire ?_⟩
        rw [eq_of_beq hc]
        refine .inr (.inr (.inr (.inr (.inr (.inr (.inl ⟨?_, ?_, ?_⟩))))))
        · rw [sx8_val hu]; split <;> omega
        · rw [sx8_val hu]; split <;> omega
        · rw [beI, show ((sx8 u).toInt % (256 ^ 1 : Int)).toNat = u by rw [sx8_val hu]; split <;> omega]
      refine ite_ok2 ?_ (fun n7 => ?_)
      · rintro hc x h
        replace h := Res.bind_eq_ok.1 h
        obtain ⟨⟨u, b1⟩, h1, h⟩ := h
        cases h
        obtain ⟨rfl, hu⟩ := uint16_inv h1
        refine ⟨c :: be 2 u, rfl, int_wire ?_⟩
        rw [ofNat_val (by omega), if_pos (by omega), eq_of_beq hc]
        exact .inr (.inr (.inr (.inl ⟨by omega, by omega, rfl⟩)))
      refine ite_ok2 ?_ (fun n8 => ?_)
      · rintro hc x h
        replace h := Res.bind_eq_ok.1 h
        obtain ⟨⟨u, b1⟩, h1, h⟩ := h
        cases h
        obtain ⟨rfl, hu⟩ := uint16_inv h1
        refine ⟨c :: be 2 u, rfl, int_wire ?_⟩
        rw [eq_of_beq hc]
        refine .inr (.inr (.inr (.inr (.inr (.inr (.inr (.inl ⟨?_, ?_, ?_⟩)))))))
        · rw [sx16_val hu]; split <;> omega
        · rw [sx16_val hu]; split <;> omega
        · rw [beI, show ((sx16 u).toInt % (256 ^ 2 : Int)).toNat = u by rw [sx16_val hu]; split <;> omega]
      refine ite_ok2 ?_ (fun n9 => ?_)
      · rintro hc x h
        replace h := Res.bind_eq_ok.1 h
        obtain ⟨⟨u, b1⟩, h1, h⟩ := h
        cases h
        obtain ⟨rfl, hu⟩ := uint32_inv h1
        refine ⟨c :: be 4 u, rfl, int_wire ?_⟩
        rw [ofNat_val (by omega), if_pos (by omega), eq_of_beq hc]
        exact .inr (.inr (.inr (.inr (.inl ⟨by omega, by omega, rfl⟩))))
      refine ite_ok2 ?_ (fun n10 => ?_)
      · rintro hc x h
        replace h := Res.bind_eq_ok.1 h
        obtain ⟨⟨u, b1⟩, h1, h⟩ := h
        cases h
        obtain ⟨rfl, hu⟩ := uint32_inv h1
        refine ⟨c :: be 4 u, rfl, int_wire ?_⟩
        rw [eq_of_beq hc]
        refine .inr (.inr (.inr (.inr (.inr (.inr (.inr (.inr (.inl ⟨?_, ?_, ?_⟩))))))))
        · rw [sx32_val hu]; split <;> omega
        · rw [sx32_val hu]; split <;> omega
        · rw [beI, show ((sx32 u).toInt % (256 ^ 4 : Int)).toNat = u by rw [sx32_val hu]; split <;> omega]
      refine ite_ok2 ?_ (fun n11 => ?_)
      · rintro hc x h
        replace h := Res.bind_eq_ok.1 h
        obtain ⟨⟨u, b1⟩, h1, h⟩ := h
        cases h
        obtain ⟨rfl, hu⟩ := uint64_inv h1
        have hv := ofNat_val hu
        refine ⟨c :: be 8 u, rfl, ?_⟩
        rcases (by simpa using hc : c = 0xd3 ∨ c = 0xcf) with rfl | rfl
        · refine int_wire (.inr (.inr (.inr (.inr (.inr (.inr (.inr (.inr (.inr ⟨?_, ?_, ?_⟩)))))))))
          · rw [hv]; split <;> omega
          · rw [hv]; split <;> omega
          · rw [beI, show ((BitVec.ofNat 64 u).toInt % (256 ^ 8 : Int)).toNat = u by rw [hv]; split <;> omega]
        · by_cases hb : u < 2 ^ 63
          · refine int_wire ?_
            rw [hv, if_pos hb]
            exact .inr (.inr (.inr (.inr (.inr (.inl ⟨by omega, by omega, rfl⟩)))))
          · exact .big u _ rfl (by omega) hu
      refine ite_ok2 ?_ (fun n12 => ?_)
      · rintro hc x h
        replace h := Res.bind_eq_ok.1 h
        obtain ⟨⟨u, b1⟩, h1, h⟩ := h
        cases h
        obtain ⟨rfl, hu⟩ := uint32_inv h1
        refine ⟨c :: be 4 u, rfl, .spec (.f32 (BitVec.ofNat 32 u)) _ _ _ rfl ?_ trivial (ofF32_eq _)⟩
        rw [Enc, eq_of_beq hc, BitVec.toNat_ofNat, Nat.mod_eq_of_lt hu]
      refine ite_ok2 ?_ (fun n13 => ?_)
      · rintro hc x h
        replace h := Res.bind_eq_ok.1 h
        obtain ⟨⟨u, b1⟩, h1, h⟩ := h
        cases h
        obtain ⟨rfl, hu⟩ := uint64_inv h1
        refine ⟨c :: be 8 u, rfl, .spec (.f64 (BitVec.ofNat 64 u)) _ _ _ rfl ?_ trivial rfl⟩
        rw [Enc, eq_of_beq hc, BitVec.toNat_ofNat, Nat.mod_eq_of_lt hu]
      refine ite_ok2 (fun hc => one (.bool true) _ [] rfl (by rw [eq_of_beq hc]; rfl) trivial rfl) (fun n14 => ite_ok2 (fun hc => one (.bool false) _ [] rfl (by rw [eq_of_beq hc]; rfl) trivial rfl)
        (fun n15 => ite_ok2 (fun hc => one .nil _ [] rfl (by rw [eq_of_beq hc]; rfl) trivial rfl) (fun n16 => ite_ok2 ?_ (fun n17 => ite_ok2 ?_ (fun n18 => ?_)))))
      · rintro hc x h
        unfold parseBin at h
        replace h := Res.bind_eq_ok.1 h
        obtain ⟨⟨n, b1⟩, h1, h⟩ := h
        obtain ⟨h', rfl, hh⟩ := len_hdr h1
        dsimp only at h
        split at h
        · rename_i hn
          cases h
          have hl : (b1.take n).length = n := by rw [List.length_take]; omega
          rcases hh with ⟨hb, _⟩ | ⟨_, hh⟩
          · rw [hc] at hb; cases hb
          · exact ⟨(c :: h') ++ b1.take n, by simp, .spec (.bin (b1.take n)) _ _ _ rfl ⟨_, by rw [hl]; exact hh, rfl⟩ trivial rfl⟩
        · cases h
      · rintro hc ⟨v, r⟩ h
        exact ext_wire h
      · intro x h
        cases h
        have hc1 : c = 0xc1 := by
          have := codes_all c
          simp only [Bool.not_eq_true] at n1 n2 n3 n4 n5 n6 n7 n8 n9 n10 n11 n12 n13 n14 n15 n16 n17 n18
          simp only [n1, n2, n3, n4, n5, n6, n7, n8, n9, n10, n11, n12, n13, n14, n15, n16, n17, n18, Bool.false_or] at this
          exact eq_of_beq this
        subst hc1
        exact ⟨0xc1 :: b, by simp, .unused b rfl⟩
    exact key _ h

/-- What is read, and what is left. -/
theorem parse_iff (E : Env) (b : Bytes) (v : Val) (r : Bytes) : parse E b = .ok (v, r) ↔ ∃ t, b = t ++ r ∧ Wire E true v t r := by
  constructor
  · exact parse_wire _ _ _ _
  · rintro ⟨t, rfl, h⟩
    exact wire_parse h _ (by simp)

end Dxs.MsgPack
