import Verif.Bson.Roundtrip
import Verif.Bson.Capacity
import Verif.EnvEx

/-!
# Properties C05 (BSON part), C12–C17, C55–C58, C61–C65, C68 (BSON part)

`Spec.document`, `Spec.payload` (file Bson/Spec.lean) transcribe the BSON specification; `value2Bson`,
`newValueFromBson` (file Bson/Model.lean) are the code.
-/

namespace Dxs.Bson
open Spec

/-! ## C05 (BSON part) -/

/-- **C05** for `Value2Bson`: whatever the destination buffer holds stays in front, and the rest does not
depend on it. -/
theorem C05_bson_appends (E : Env) (v : Val) (dst : Bytes) :
    value2Bson E v dst = after dst (value2Bson E v []) := by
  cases v <;> simp only [value2Bson] <;> first | exact writeValue_app E _ dst | rfl

/-! ## C12 -/

mutual
/-- `out` has the document frame (length prefix, final zero) wherever `v` has an object or array, at every
depth. Nothing is demanded of the bytes of the other values. -/
def Framed (E : Env) : Val → Bytes → Prop
  | .obj ku kvs, out => ∃ body, out = frame body ∧ FramedM E ku kvs body
  | .arr xs, out => ∃ body, out = frame body ∧ FramedL E 0 xs body
  | _, _ => True
def FramedM (E : Env) (ku : Bool) : List (Bytes × Val) → Bytes → Prop
  | [], body => body = []
  | (k, v) :: kvs, body => ∃ t p rest,
      body = t ++ (if ku then k else E.unesc k) ++ 0 :: p ++ rest ∧ t.length ≤ 1 ∧ Framed E v p ∧
      FramedM E ku kvs rest
def FramedL (E : Env) : Nat → List Val → Bytes → Prop
  | _, [], body => body = []
  | i, v :: vs, body => ∃ t p rest,
      body = t ++ decNat i ++ 0 :: p ++ rest ∧ t.length ≤ 1 ∧ Framed E v p ∧ FramedL E (i + 1) vs rest
end

theorem elementType_length (v : Val) : (elementType v).length ≤ 1 := by
  cases v <;> simp only [elementType] <;> (repeat' split) <;> simp

mutual
theorem framed_of_write (E : Env) : ∀ (v : Val) (out : Bytes), writeValue E v [] = .ok out → Framed E v out
  | .obj ku kvs, out, h => by
    rw [writeObj_frame] at h
    cases hm : writeMembers E ku kvs [] with
    | ok body =>
      rw [hm] at h
      simp [after] at h
      exact ⟨body, h.symm, framedM_of_write E ku kvs body hm⟩
    | err _ => rw [hm] at h; simp [after] at h
    | panic => rw [hm] at h; simp [after] at h
    | loop => rw [hm] at h; simp [after] at h
  | .arr xs, out, h => by
    rw [writeArr_frame] at h
    cases hm : writeElems E xs 0 [] with
    | ok body =>
      rw [hm] at h
      simp [after] at h
      exact ⟨body, h.symm, framedL_of_write E xs 0 body hm⟩
    | err _ => rw [hm] at h; simp [after] at h
    | panic => rw [hm] at h; simp [after] at h
    | loop => rw [hm] at h; simp [after] at h
  | .nil, _, _ | .str _, _, _ | .raw _, _, _ | .int _ _, _, _ | .float _, _, _ | .double _, _, _
  | .dateTime _, _, _ | .bin _ _, _, _ | .exbin _ _, _, _ | .null, _, _ | .tru, _, _ | .fls, _, _
  | .nan, _, _ | .inf, _, _ => trivial
theorem framedM_of_write (E : Env) (ku : Bool) : ∀ (kvs : List (Bytes × Val)) (body : Bytes),
    writeMembers E ku kvs [] = .ok body → FramedM E ku kvs body
  | [], body, h => by simp [writeMembers] at h; exact h
  | (k, v) :: kvs, body, h => by
    simp only [writeMembers] at h
    rw [writeValue_app] at h
    cases hv : writeValue E v [] with
    | ok p =>
      rw [hv] at h
      simp only [after, Res.bind_ok] at h
      rw [writeMembers_app] at h
      cases hm : writeMembers E ku kvs [] with
      | ok rest =>
        rw [hm] at h
        simp only [after, Res.bind_ok, Res.ok.injEq] at h
        exact ⟨elementType v, p, rest, by rw [← h]; simp, elementType_length v, framed_of_write E v p hv,
          framedM_of_write E ku kvs rest hm⟩
      | err _ => rw [hm] at h; simp [after] at h
      | panic => rw [hm] at h; simp [after] at h
      | loop => rw [hm] at h; simp [after] at h
    | err _ => rw [hv] at h; simp [after] at h
    | panic => rw [hv] at h; simp [after] at h
    | loop => rw [hv] at h; simp [after] at h
theorem framedL_of_write (E : Env) : ∀ (xs : List Val) (i : Nat) (body : Bytes),
    writeElems E xs i [] = .ok body → FramedL E i xs body
  | [], i, body, h => by simp [writeElems] at h; exact h
  | v :: vs, i, body, h => by
    simp only [writeElems] at h
    rw [writeValue_app] at h
    cases hv : writeValue E v [] with
    | ok p =>
      rw [hv] at h
      simp only [after, Res.bind_ok] at h
      rw [writeElems_app] at h
      cases hm : writeElems E vs (i + 1) [] with
      | ok rest =>
        rw [hm] at h
        simp only [after, Res.bind_ok, Res.ok.injEq] at h
        exact ⟨elementType v, p, rest, by rw [← h]; simp, elementType_length v, framed_of_write E v p hv,
          framedL_of_write E vs (i + 1) rest hm⟩
      | err _ => rw [hm] at h; simp [after] at h
      | panic => rw [hm] at h; simp [after] at h
      | loop => rw [hm] at h; simp [after] at h
    | err _ => rw [hv] at h; simp [after] at h
    | panic => rw [hv] at h; simp [after] at h
    | loop => rw [hv] at h; simp [after] at h
end

/-- **C12.** For every object or array and every destination buffer: if `Value2Bson` returns, it returns
the buffer followed by a correctly framed document, all nested documents being framed in the same way. -/
theorem C12_framing (E : Env) (v : Val) (dst out : Bytes) (h : value2Bson E v dst = .ok out) :
    ∃ p, out = dst ++ p ∧ Framed E v p ∧ ∃ body, p = frame body := by
  rw [C05_bson_appends] at h
  have hw : ∃ p, value2Bson E v [] = .ok p ∧ out = dst ++ p := by
    cases hv : value2Bson E v [] with
    | ok p => rw [hv] at h; simp [after] at h; exact ⟨p, rfl, h.symm⟩
    | err _ => rw [hv] at h; simp [after] at h
    | panic => rw [hv] at h; simp [after] at h
    | loop => rw [hv] at h; simp [after] at h
  obtain ⟨p, hp, ho⟩ := hw
  refine ⟨p, ho, ?_⟩
  cases v <;> simp only [value2Bson, reduceCtorEq] at hp
  · have := framed_of_write E _ _ hp
    obtain ⟨body, hb, _⟩ := id this
    exact ⟨this, body, hb⟩
  · have := framed_of_write E _ _ hp
    obtain ⟨body, hb, _⟩ := id this
    exact ⟨this, body, hb⟩

/-- **C12**, the rest of the format: every object that has a BSON serialisation is written as exactly that
serialisation. -/
theorem C12_document (E : Env) (ku : Bool) (kvs : List (Bytes × Val)) (dst : Bytes) (h : WritableM kvs) :
    value2Bson E (.obj ku kvs) dst = .ok (dst ++ document (dataM E ku kvs)) := by
  rw [C05_bson_appends]
  simp only [value2Bson]
  rw [writeValue_ok E (.obj ku kvs) h]
  rfl

/-- Non-vacuity: nested documents, a binary, a time. -/
example : WritableM [([97], .obj true [([], .arr [.int 0 5, .bin 0 [1]])]), ([98], .dateTime 3)] ∧
    value2Bson envEx (.obj true [([97], .arr [.tru])]) [255] =
      .ok [255, 17, 0, 0, 0, 4, 97, 0, 9, 0, 0, 0, 8, 48, 0, 1, 0, 0] := by
  refine ⟨⟨⟨⟨trivial, Or.inl rfl, trivial⟩, trivial⟩, trivial, trivial⟩, by decide⟩

/-! ## C13 -/

/-- **C13** (partial): every object made of values that survive (see `Survives`, file Bson/Spec.lean)
comes back from BSON as the same value, whatever bytes follow it and whatever lies in the spare capacity.
Missing for the full statement: exactly the values C14–C17 are about, for which it is false. -/
theorem C13_roundtrip_partial (E : Env) (hE : IndexLaw E) (hid rest : Bytes) (ku : Bool)
    (kvs : List (Bytes × Val)) (h : Survives E (.obj ku kvs))
    (hl : (document (dataM E ku kvs)).length < 2 ^ 31) :
    ∃ bs w, value2Bson E (.obj ku kvs) [] = .ok bs ∧ newValueFromBson E hid (bs ++ rest) = .ok w ∧
      Same E (.obj ku kvs) w := by
  obtain ⟨hwf, hr⟩ := survives_wf E (.obj ku kvs) h hl
  obtain ⟨vs, hv, e⟩ := newValue_doc E hE hid (dataM E ku kvs) rest hwf hr
  exact ⟨_, _, C12_document E ku kvs [] (survives_writable E _ h), e,
    same_of_denotes E _ _ h ⟨vs, rfl, hv⟩⟩

/-- The index law holds for decimal parsing. -/
theorem indexLaw_ex : IndexLaw envEx := by
  intro i _
  show exInt (decNat i) = _
  obtain ⟨c, r, e, hc1, hc2⟩ := digitsAux_head (i + 1) i (by omega)
  have hd := exDigits_dec (i + 1) i (by omega)
  unfold decNat
  rw [e] at hd ⊢
  unfold exInt
  split
  · rename_i h; cases h
  · rename_i h; cases h; simp at hc1
  · rename_i h; cases h; simp at hc1
  · rw [hd]; rfl

/-- Non-vacuity of C13's hypotheses: escaped keys, nested arrays, an ObjectID. -/
example : Survives envEx (.obj false [([97], .arr [.int 0 5, .null]), ([92, 110], .obj true [([], .raw [1])]),
      ([99], .bin 7 [1, 2, 3, 4, 5, 6, 7, 8, 9, 10, 11, 12])]) ∧
    (document (dataM envEx false [([97], .arr [.int 0 5, .null]), ([92, 110], .obj true [([], .raw [1])]),
      ([99], .bin 7 [1, 2, 3, 4, 5, 6, 7, 8, 9, 10, 11, 12])])).length < 2 ^ 31 := by
  refine ⟨⟨by decide, by decide, ⟨by decide, ⟨by decide, ⟨Or.inr (Or.inl (by decide)), trivial, trivial⟩⟩,
    ⟨by decide, ⟨by decide, by decide, ⟨by decide, trivial, trivial⟩⟩, ⟨by decide, Or.inl ⟨rfl, rfl⟩, trivial⟩⟩⟩⟩, ?_⟩
  decide

/-! ## C14 -/

theorem le_nonneg_int32 (E : Env) (hid r : Bytes) (f : Nat) (n : Int) :
    parseElem E hid (f + 1) 0x10 (leI 4 n ++ r) .null =
      .ok (4, .int 0 (BitVec.ofNat 64 (n % 2 ^ 32).toNat)) := by
  simp only [parseElem, parseSimple, leI]
  have : (n % (256 ^ 4 : Int)).toNat < 2 ^ 32 := by omega
  have h256 : ((256 : Int) ^ 4) = 2 ^ 32 := by decide
  rw [h256] at this ⊢
  simp only [uint32_le hid r _ this]
  rfl

theorem idxOf_zero (r : Bytes) : (0 :: r : Bytes).idxOf? 0 = some 0 := by simp [List.idxOf?, List.findIdx?_cons]

/-- **C14** (partial): every int64 except the negative 32-bit ones survives, under every key.
Missing: negative 32-bit integers, for which the property is false (next theorem). -/
theorem C14_int_partial (E : Env) (hid rest k : Bytes) (c : BitVec 64) (hk : (0 : UInt8) ∉ k)
    (hl : k.length < 2 ^ 30) (h : 0 ≤ c.toInt ∨ c.toInt < -2 ^ 31) :
    ∃ bs, value2Bson E (.obj true [(k, .int 0 c)]) [] = .ok bs ∧
      newValueFromBson E hid (bs ++ rest) = .ok (.obj true [(k, .int 0 c)]) := by
  have hr := toInt_range c
  refine ⟨_, C12_document E true _ [] ⟨trivial, trivial⟩, ?_⟩
  simp only [dataM, data, if_true, List.nil_append]
  rw [if_neg (by decide)]
  by_cases h2 : (-2 ^ 31 ≤ c.toInt ∧ c.toInt < 2 ^ 31)
  · rw [if_pos h2]
    refine newValue_one E hid k _ rest _ hk (by simp [document, frame_length, members, payload, leI]; omega) ?_
    intro f hf
    obtain ⟨f, rfl⟩ : ∃ g, f = g + 1 := ⟨f - 1, by omega⟩
    simp only [ty, payload, targetType]
    rw [show blank _ = Val.null from rfl, le_nonneg_int32 E hid _ f _]
    have : BitVec.ofNat 64 (c.toInt % 2 ^ 32).toNat = c := by
      apply BitVec.eq_of_toNat_eq
      have := c.isLt
      rw [BitVec.toInt_eq_toNat_cond] at *
      simp
      split at h <;> simp_all <;> omega
    rw [this]
    simp [leI]
  · rw [if_neg h2]
    refine newValue_one E hid k _ rest _ hk (by simp [document, frame_length, members, payload, leI]; omega) ?_
    intro f hf
    obtain ⟨f, rfl⟩ : ∃ g, f = g + 1 := ⟨f - 1, by omega⟩
    simp only [ty, payload, targetType, parseElem, parseSimple]
    rw [leI8_toInt]
    simp [uint64_le hid _ c.toNat c.isLt]

/-- **C14 is false** for every negative 32-bit integer: `n` comes back as `n + 2^32`. -/
theorem C14_negative_wrong (E : Env) (hid rest k : Bytes) (c : BitVec 64) (hk : (0 : UInt8) ∉ k)
    (hl : k.length < 2 ^ 30) (h : -2 ^ 31 ≤ c.toInt ∧ c.toInt < 0) :
    ∃ bs c', value2Bson E (.obj true [(k, .int 0 c)]) [] = .ok bs ∧
      newValueFromBson E hid (bs ++ rest) = .ok (.obj true [(k, .int 0 c')]) ∧
      c'.toInt = c.toInt + 2 ^ 32 := by
  refine ⟨_, BitVec.ofNat 64 (c.toInt % 2 ^ 32).toNat, C12_document E true _ [] ⟨trivial, trivial⟩, ?_, ?_⟩
  · have h2 : (-2 ^ 31 ≤ c.toInt ∧ c.toInt < 2 ^ 31) := by omega
    simp only [dataM, data, if_true, List.nil_append]
    rw [if_neg (by decide), if_pos h2]
    refine newValue_one E hid k _ rest _ hk (by simp [document, frame_length, members, payload, leI]; omega) ?_
    intro f hf
    obtain ⟨f, rfl⟩ : ∃ g, f = g + 1 := ⟨f - 1, by omega⟩
    simp only [ty, payload, targetType]
    rw [show blank _ = Val.null from rfl, le_nonneg_int32 E hid _ f _]
    simp [leI]
  · rw [ofNat_toInt _ (by omega)]
    omega

/-- Both cases occur: -1 is stored as a negative 32-bit integer, 5 is not. -/
example : (-2 ^ 31 ≤ (-1 : BitVec 64).toInt ∧ (-1 : BitVec 64).toInt < 0) ∧ 0 ≤ (5 : BitVec 64).toInt := by decide

/-! ## C15 -/

/-- **C15 is false** (1): the empty object is written as an empty document, which is then rejected. -/
theorem C15_empty_object_rejected (E : Env) (hid : Bytes) (ku : Bool) :
    value2Bson E (.obj ku []) [] = .ok [5, 0, 0, 0, 0] ∧
    newValueFromBson E hid [5, 0, 0, 0, 0] = .err .invalidBson := by
  constructor
  · rfl
  · simp [newValueFromBson, parseDoc, uint32, sliceTo, be32, docLoop, at_, List.idxOf?]

/-- **C15 is false** (2): an empty object under a key comes back as an object with one spurious member, the
null `""`. For every key, whatever follows. -/
theorem C15_nested_empty_object_wrong (E : Env) (hid rest k : Bytes) (ku : Bool) (hk : (0 : UInt8) ∉ k)
    (hl : k.length < 2 ^ 30) :
    ∃ bs, value2Bson E (.obj true [(k, .obj ku [])]) [] = .ok bs ∧
      newValueFromBson E hid (bs ++ rest) = .ok (.obj true [(k, .obj true [([], .null)])]) := by
  refine ⟨_, C12_document E true _ [] ⟨trivial, trivial⟩, ?_⟩
  simp only [dataM, data, if_true, List.nil_append]
  refine newValue_one E hid k _ rest _ hk (by simp [document, frame_length, members, payload]; omega) ?_
  intro f hf
  simp [payload, members, frame, le] at hf
  obtain ⟨f, rfl⟩ : ∃ g, f = g + 4 := ⟨f - 4, by omega⟩
  rw [ty, parseElem_doc, parseDoc]
  have hu : uint32 hid (payload (.doc []) ++ 0 :: rest) = .ok 5 := by
    simp [payload, members, frame, le, uint32, sliceTo, be32]
  have hidx : indexByName E false [] ([] : Bytes) = (none, true, []) := indexByName_new (Or.inr rfl) (by simp)
  rw [if_neg (by simp [payload, members, frame, le]), hu]
  simp only [Res.bind_ok]
  rw [if_neg (by simp [payload, members, frame, le]), docLoop]
  simp [at_, payload, members, frame, le, idxOf_zero, hidx, parseElem, parseSimple, targetType, docLoop]

/-- **C15 is false** (3): a document with an empty array under a key cannot be decoded at all (when
`StrToIntDef("")` yields its default). -/
theorem C15_nested_empty_array_rejected (E : Env) (hid rest k : Bytes) (hk : (0 : UInt8) ∉ k)
    (hl : k.length < 2 ^ 30) (hE : E.strToInt [] = none) :
    ∃ bs, value2Bson E (.obj true [(k, .arr [])]) [] = .ok bs ∧
      newValueFromBson E hid (bs ++ rest) = .err .bsonArrayIndex := by
  refine ⟨_, C12_document E true _ [] ⟨trivial, trivial⟩, ?_⟩
  have hb : document (dataM E true [(k, .arr [])]) = le 4 (k.length + 12) ++ (4 :: (k ++ 0 :: (5 :: 0 :: 0 :: 0 :: 0 :: [0]))) := by
    simp only [document, dataM, data, members, payload, frame, elems, dataL, ty, if_true]
    generalize hn : List.length (4 :: k ++ 0 :: _ ++ []) + 5 = n
    have hn' : n = k.length + 12 := by rw [← hn]; simp
    rw [hn']
    simp [le]
  rw [List.nil_append, hb]
  unfold newValueFromBson
  generalize hbg : le 4 (k.length + 12) ++ (4 :: (k ++ 0 :: (5 :: 0 :: 0 :: 0 :: 0 :: [0]))) ++ rest = b
  have hbl : b.length = k.length + 12 + rest.length := by rw [← hbg]; simp; omega
  have hu : uint32 hid b = .ok (k.length + 12) := by
    rw [← hbg, List.append_assoc]; exact uint32_le hid _ _ (by omega)
  have hb4 : b.drop 4 = 4 :: (k ++ 0 :: (5 :: 0 :: 0 :: 0 :: 0 :: 0 :: rest)) := by
    rw [← hbg]; simp [le]
  have hb5 : b.drop (4 + 1) = k ++ 0 :: (5 :: 0 :: 0 :: 0 :: 0 :: 0 :: rest) := by
    have := drop_after b [4] _ 4 1 hb4 rfl
    simpa using this
  have hb6 : b.drop (4 + 1 + k.length + 1) = 5 :: 0 :: 0 :: 0 :: 0 :: 0 :: rest := by
    have := drop_after b (k ++ [0]) (5 :: 0 :: 0 :: 0 :: 0 :: 0 :: rest) (4 + 1) (k.length + 1)
      (by rw [hb5]; simp) (by simp)
    rw [← this]; rfl
  obtain ⟨g, hg⟩ : ∃ g, 2 * b.length + 2 = g + 5 := ⟨2 * b.length - 3, by omega⟩
  have hidx : indexByName E false [] k = (none, true, []) := indexByName_new (Or.inr rfl) (by simp)
  rw [hg, parseDoc, if_neg (by omega), hu]
  simp only [Res.bind_ok]
  rw [if_neg (by omega), docLoop, if_pos (by omega), at_drop b 4 _ _ hb4]
  simp only [Res.bind_ok, hb5, idxOf_key k _ hk, List.take_left, hidx, hb6]
  rw [parseElem_arr, parseArr]
  have hnl : ¬ (rest.length + 1 + 1 + 1 + 1 + 1 + 1 < 5) := by omega
  simp [uint32, sliceTo, be32, arrLoop, at_, idxOf_zero, hE, hnl]

/-- The hypotheses of the three theorems are satisfiable. -/
example : (0 : UInt8) ∉ ([107] : Bytes) ∧ ([107] : Bytes).length < 2 ^ 30 ∧ envEx.strToInt [] = none := by decide

/-- **C15** (partial): objects without empty containers do survive: this is `C13_roundtrip_partial`,
restated for objects whose members are non-empty arrays of nulls. Missing: the empty ones, for which it is
false by the three theorems above. -/
theorem C15_nonempty_partial (E : Env) (hE : IndexLaw E) (hid rest k : Bytes) (n : Nat) (hk : (0 : UInt8) ∉ k)
    (hn : 0 < n)
    (hl : (document (dataM E true [(k, .arr (List.replicate n .null))])).length < 2 ^ 31) :
    ∃ bs, value2Bson E (.obj true [(k, .arr (List.replicate n .null))]) [] = .ok bs ∧
      newValueFromBson E hid (bs ++ rest) = .ok (.obj true [(k, .arr (List.replicate n .null))]) := by
  have hsl : ∀ n, SurvivesL E (List.replicate n .null) := by
    intro n; induction n with
    | zero => trivial
    | succ n ih => exact ⟨trivial, ih⟩
  have hs : Survives E (.obj true [(k, .arr (List.replicate n .null))]) :=
    ⟨by simp, by simp [unescKeys], hk, ⟨by simp; omega, hsl n⟩, trivial⟩
  obtain ⟨hwf, hr⟩ := survives_wf E _ hs hl
  obtain ⟨vs, hv, e⟩ := newValue_doc E hE hid _ rest hwf hr
  have hsame := sameM_of_denotes E true _ vs hs.2.2 hv
  obtain ⟨w, ws, rfl, ⟨ys, rfl, hys⟩, rfl⟩ := hsame
  have hrep : ∀ n ys, SameL E (List.replicate n .null) ys → ys = List.replicate n .null := by
    intro n; induction n with
    | zero => intro ys h; exact h
    | succ n ih =>
      intro ys h
      obtain ⟨w, ws, rfl, h1, h2⟩ := h
      have h1 : w = .null := h1
      rw [ih ws h2, h1]; rfl
  rw [hrep n ys hys, Assoc.lastWins_distinct (by simp [Assoc.Distinct])] at e
  exact ⟨_, C12_document E true _ [] (survives_writable E _ hs), e⟩

/-! ## C16 -/

/-- **C16 is false** for every binary: its bytes come back with a zero byte in front. -/
theorem C16_binary_wrong (E : Env) (hid rest k b : Bytes) (hk : (0 : UInt8) ∉ k)
    (hl : k.length + b.length < 2 ^ 30) :
    ∃ bs, value2Bson E (.obj true [(k, .bin 0 b)]) [] = .ok bs ∧
      newValueFromBson E hid (bs ++ rest) = .ok (.obj true [(k, .bin 0 (0 :: b))]) := by
  refine ⟨_, C12_document E true _ [] ⟨Or.inl rfl, trivial⟩, ?_⟩
  simp only [dataM, data, if_true, List.nil_append]
  rw [if_neg (by decide), if_neg (by decide)]
  refine newValue_one E hid k _ rest _ hk (by simp [document, frame_length, members, payload]; omega) ?_
  intro f hf
  obtain ⟨f, rfl⟩ : ∃ g, f = g + 1 := ⟨f - 1, by omega⟩
  simp only [ty, payload, targetType, parseElem, parseSimple, parseBinary]
  have h1 : uint32 hid (le 4 b.length ++ 0 :: b ++ 0 :: rest) = .ok b.length := by
    rw [List.append_assoc]; exact uint32_le hid _ _ (by omega)
  have h2 : MsgPack.sliceFrom 4 (le 4 b.length ++ 0 :: b ++ 0 :: rest) = .ok (0 :: b ++ 0 :: rest) := by
    simp [MsgPack.sliceFrom, le]
  have h3 : sliceTo hid (b.length + 1) (0 :: b ++ 0 :: rest) = .ok (0 :: b) :=
    sliceTo_pre hid (0 :: b) _ _ (by simp)
  simp only [List.append_assoc, List.cons_append] at h1 h2 h3
  simp [h1, h2, h3, at_]

/-- **C16** (partial): binaries tagged as ObjectID (12 bytes) or Decimal128 (16 bytes) do survive.
Missing: generic binaries, for which it is false. -/
theorem C16_tagged_partial (E : Env) (hid rest k b : Bytes) (ext : UInt8) (hk : (0 : UInt8) ∉ k)
    (hl : k.length < 2 ^ 30) (h : (ext = 7 ∧ b.length = 12) ∨ (ext = 19 ∧ b.length = 16)) :
    ∃ bs, value2Bson E (.obj true [(k, .bin ext b)]) [] = .ok bs ∧
      newValueFromBson E hid (bs ++ rest) = .ok (.obj true [(k, .bin ext b)]) := by
  refine ⟨_, C12_document E true _ [] ⟨?_, trivial⟩, ?_⟩
  · rcases h with ⟨h1, h2⟩ | ⟨h1, h2⟩
    · exact Or.inr (Or.inr (Or.inl ⟨h1, by omega⟩))
    · exact Or.inr (Or.inr (Or.inr ⟨h1, by omega⟩))
  · rcases h with ⟨rfl, h2⟩ | ⟨rfl, h2⟩
    · have ht : b.take 12 = b := List.take_of_length_le (by omega)
      simp only [dataM, data, if_true, List.nil_append, ht]
      refine newValue_one E hid k _ rest _ hk (by simp [document, frame_length, members, payload]; omega) ?_
      intro f hf
      obtain ⟨f, rfl⟩ : ∃ g, f = g + 1 := ⟨f - 1, by omega⟩
      simp only [ty, payload, parseElem, parseSimple]
      simp [sliceTo_pre hid b (0 :: rest) 12 h2, h2]
    · have ht : b.take 16 = b := List.take_of_length_le (by omega)
      simp only [dataM, data, if_true, List.nil_append, ht]
      rw [if_neg (by decide)]
      refine newValue_one E hid k _ rest _ hk (by simp [document, frame_length, members, payload]; omega) ?_
      intro f hf
      obtain ⟨f, rfl⟩ : ∃ g, f = g + 1 := ⟨f - 1, by omega⟩
      simp only [ty, payload, parseElem, parseSimple]
      simp [sliceTo_pre hid b (0 :: rest) 16 h2, h2]

/-! ## C17 -/

/-- **C17 is false** for every float32 but 0: in a fresh node (upper half of the cell zero) the double
written differs from the number. The law about `float64(x)` used: a non-zero float32 converts to a double
whose upper half is not zero (true of IEEE 754: the exponent or sign bits are not all zero). -/
theorem C17_float_wrong (E : Env) (k dst : Bytes) (x : F32)
    (hE : ∀ y : F32, y ≠ 0 → (E.f32to64 y) >>> 32 ≠ 0) (hx : x ≠ 0) :
    ∃ w, value2Bson E (.obj true [(k, .float (x.setWidth 64))]) dst =
        .ok (dst ++ document [(k, .double w)]) ∧ w ≠ E.f32to64 x := by
  refine ⟨x.setWidth 64, C12_document E true _ dst ⟨trivial, trivial⟩, ?_⟩
  intro h
  have := hE x hx
  rw [← h] at this
  apply this
  apply BitVec.eq_of_toNat_eq
  have := x.isLt
  simp [Nat.shiftRight_eq_div_pow]
  omega

/-- **C17** (partial): what is written is the double with exactly the bits of the 8-byte cell; so it is right
if and only if the cell happens to hold the converted number. -/
theorem C17_float_partial (E : Env) (k dst : Bytes) (c : BitVec 64) :
    value2Bson E (.obj true [(k, .float c)]) dst = .ok (dst ++ document [(k, .double c)]) :=
  C12_document E true _ dst ⟨trivial, trivial⟩

/-- The law of `C17_float_wrong` is satisfiable. -/
example : ∃ E : Env, ∀ y : F32, y ≠ 0 → (E.f32to64 y) >>> 32 ≠ 0 := by
  refine ⟨{ envEx with f32to64 := fun y => y.setWidth 64 <<< 32 }, ?_⟩
  intro y hy h
  apply hy
  apply BitVec.eq_of_toNat_eq
  have h1 := congrArg BitVec.toNat h
  have h2 := y.isLt
  simp [Nat.shiftRight_eq_div_pow, Nat.shiftLeft_eq] at h1 ⊢
  omega

/-! ## C55 -/

/-- **C55.** Documents written according to the BSON specification, of the element types the package reads
(see `Readable`), decode to what they denote, whatever follows and whatever lies in the spare capacity. -/
theorem C55_decode_spec (E : Env) (hE : IndexLaw E) (hid rest : Bytes) (kvs : List (Bytes × BElem))
    (hw : WF (.doc kvs)) (hr : Readable E (.doc kvs)) :
    ∃ v, Denotes E (.doc kvs) v ∧ newValueFromBson E hid (document kvs ++ rest) = .ok v := by
  obtain ⟨vs, hv, e⟩ := newValue_doc E hE hid kvs rest hw hr
  exact ⟨_, ⟨vs, rfl, hv⟩, e⟩

/-- Non-vacuity. -/
example : WF (.doc [([97], .arr [.int64 (-5), .str [1, 2]]), ([98], .doc [([], .bool true)])]) ∧
    Readable envEx (.doc [([97], .arr [.int64 (-5), .str [1, 2]]), ([98], .doc [([], .bool true)])]) := by
  refine ⟨⟨by decide, by decide, ⟨by decide, ⟨by decide, by decide⟩, by show _ < _; decide, trivial⟩, by decide,
    ⟨by decide, by decide, trivial, trivial⟩, trivial⟩, by decide, by decide, ⟨by decide, trivial, trivial, trivial⟩,
    ⟨by decide, by decide, trivial, trivial⟩, trivial⟩

/-! ## C56 -/

/-- **C56.** A document cut short (at any point) is rejected with an error: never accepted, no panic, for
every document body whatsoever. -/
theorem C56_truncated (E : Env) (hid body p : Bytes) (hl : (frame body).length < 2 ^ 32)
    (hp : p <+: frame body) (hne : p ≠ frame body) : newValueFromBson E hid p = .err .badBsonLen := by
  obtain ⟨q, hq⟩ := hp
  have hqne : q ≠ [] := by rintro rfl; exact hne (by simpa using hq)
  have hqpos : 0 < q.length := List.length_pos_iff.mpr hqne
  have hlen : p.length + q.length = body.length + 5 := by
    rw [← frame_length, ← hq]; simp
  rw [frame_length] at hl
  unfold newValueFromBson
  rw [parseDoc]
  split
  · rfl
  · rename_i h4
    have hp4 : p = le 4 (body.length + 5) ++ p.drop 4 := by
      have h := congrArg (List.take 4) hq
      rw [List.take_append_of_le_length (by omega)] at h
      have h' : (frame body).take 4 = le 4 (body.length + 5) := by simp [frame, le]
      rw [h'] at h
      rw [← h]; simp
    rw [hp4, uint32_le hid _ _ hl, ← hp4]
    simp only [Res.bind_ok]
    rw [if_pos (by omega)]
    rfl

/-- Non-vacuity: every proper prefix of a real document qualifies, e.g. 9 of 17 bytes. -/
example : (frame [4, 97, 0, 9, 0, 0, 0, 8, 48, 0, 1, 0]).length = 17 ∧
    ([17, 0, 0, 0, 4, 97, 0, 9, 0] : Bytes) <+: frame [4, 97, 0, 9, 0, 0, 0, 8, 48, 0, 1, 0] := by
  exact ⟨by decide, [0, 0, 8, 48, 0, 1, 0, 0], by decide⟩

/-! ## C57 -/

/-- **C57.** The BSON decoder terminates on every input (each document and each element consumes input). -/
theorem C57_terminates (E : Env) (hid b : Bytes) : newValueFromBson E hid b ≠ .loop := by
  unfold newValueFromBson
  refine bind_ne_loop ((no_loop E hid _).1 _ _ _ (by omega)) fun r _ => ?_
  obtain ⟨n, v⟩ := r
  simp

/-! ## C58 -/

/-- **C58 is false** (1): a string member whose length field is 0 panics, however much data follows. -/
theorem C58_panic (E : Env) (hid : Bytes) :
    newValueFromBson E hid [12, 0, 0, 0, 2, 97, 0, 0, 0, 0, 0, 0] = .panic := by
  have hidx : indexByName E false [] ([97] : Bytes) = (none, true, []) := indexByName_new (Or.inr rfl) (by simp)
  have hz : ([97, 0, 0, 0, 0, 0, 0] : Bytes).idxOf? 0 = some 1 := by decide
  have hu : uint32 hid [12, 0, 0, 0, 2, 97, 0, 0, 0, 0, 0, 0] = .ok 12 := rfl
  have hu' : uint32 hid [0, 0, 0, 0, 0] = .ok 0 := rfl
  unfold newValueFromBson
  rw [parseDoc, if_neg (by decide), hu]
  simp only [Res.bind_ok, List.length_cons, List.length_nil]
  rw [if_neg (by decide), docLoop, if_pos (by decide)]
  simp only [at_, List.getElem?_cons_succ, List.getElem?_cons_zero, Res.bind_ok, List.drop_succ_cons, List.drop_zero,
    hz, List.take_succ_cons, List.take_zero, hidx]
  rw [parseElem.eq_def]
  simp only [parseSimple]
  simp [hu']

/-- **C58 is false** (2): the decoder reads the bytes behind the slice it was given: the same 11 input bytes
decode to different strings depending on what lies in the spare capacity. -/
theorem C58_reads_beyond (E : Env) : ∃ b h1 h2 v1 v2,
    newValueFromBson E h1 b = .ok v1 ∧ newValueFromBson E h2 b = .ok v2 ∧ v1 ≠ v2 := by
  have hidx : indexByName E false [] ([97] : Bytes) = (none, true, []) := indexByName_new (Or.inr rfl) (by simp)
  have hz : ([97, 0, 3, 0, 0, 0] : Bytes).idxOf? 0 = some 1 := by decide
  have key : ∀ x : UInt8, newValueFromBson E [x, x, 0] [11, 0, 0, 0, 2, 97, 0, 3, 0, 0, 0] =
      .ok (.obj true [([97], .str [x, x])]) := by
    intro x
    have hu : uint32 [x, x, 0] [11, 0, 0, 0, 2, 97, 0, 3, 0, 0, 0] = .ok 11 := rfl
    have hu' : uint32 [x, x, 0] [3, 0, 0, 0] = .ok 3 := rfl
    have hs : slice [x, x, 0] 4 6 [3, 0, 0, 0] = .ok [x, x] := rfl
    unfold newValueFromBson
    rw [parseDoc, if_neg (by decide), hu]
    simp only [Res.bind_ok, List.length_cons, List.length_nil]
    rw [if_neg (by decide), docLoop, if_pos (by decide)]
    simp only [at_, List.getElem?_cons_succ, List.getElem?_cons_zero, Res.bind_ok, List.drop_succ_cons, List.drop_zero,
      hz, List.take_succ_cons, List.take_zero, hidx]
    rw [parseElem.eq_def]
    simp only [parseSimple]
    simp only [hu', Res.bind_ok]
    rfl
  exact ⟨[11, 0, 0, 0, 2, 97, 0, 3, 0, 0, 0], [65, 65, 0], [66, 66, 0],
    .obj true [([97], .str [65, 65])], .obj true [([97], .str [66, 66])], key 65, key 66, by decide⟩

/-- **C58** (partial): if decoding a buffer without spare capacity does not panic, then decoding the same
bytes in any larger buffer gives the same result. So foreign bytes are read only where the missing length
checks would otherwise make it panic. Missing: the length checks. -/
theorem C58_capacity_partial (E : Env) (hid b : Bytes) (h : newValueFromBson E [] b ≠ .panic) :
    newValueFromBson E hid b = newValueFromBson E [] b := by
  have := ((parse_upto E hid (2 * b.length + 2)).1 b false []).bind
    (g := fun r => Res.ok r.2) (h := fun r => Res.ok r.2) (fun _ => .rfl' _)
  rcases this with h' | h'
  · exact absurd h' h
  · exact h'

/-- Non-vacuity. -/
example : newValueFromBson envEx [] [17, 0, 0, 0, 4, 97, 0, 9, 0, 0, 0, 8, 48, 0, 1, 0, 0] =
    .ok (.obj true [([97], .arr [.tru])]) := by decide

/-! ## More on C12 and C55 -/

/-- **C12**, `ToBson` on a value that is neither object nor array: the bare element value, without a frame. -/
theorem C12_toBson_bare (E : Env) (v : Val) (dst : Bytes) (h : Writable v) (hn : v ≠ .nil) :
    toBson E v dst = .ok (dst ++ payload (data E v)) := by
  have : toBson E v dst = writeValue E v dst := by cases v <;> first | rfl | exact absurd rfl hn
  rw [this, writeValue_app, writeValue_ok E v h]
  rfl

example : toBson envEx (.int 0 5) [9] = .ok [9, 5, 0, 0, 0] := by decide

/-- **C55**, booleans: any byte other than 1 is false. -/
theorem C55_bool_byte (E : Env) (hid r : Bytes) (x : UInt8) :
    parseSimple E hid 8 (x :: r) = .ok (1, if x = 1 then .tru else .fls) := by
  simp [parseSimple, at_]

/-! ## C61 (BSON part) -/

/-- **C61 is false**: a NAN or INF member is written without a type byte, so what is written is not the
document of any value under that key. -/
theorem C61_bson_no_type (E : Env) (k : Bytes) (v : Val) (hv : v = .nan ∨ v = .inf) :
    value2Bson E (.obj true [(k, v)]) [] = .ok (frame (k ++ [0])) ∧
    ∀ e, frame (k ++ [0]) ≠ document [(k, e)] := by
  constructor
  · have : writeMembers E true [(k, v)] [] = .ok (k ++ [0]) := by
      rcases hv with rfl | rfl <;> simp [writeMembers, writeValue, simpleValue, elementType]
    simp only [value2Bson]
    rw [writeObj_frame, this]
    rfl
  · intro e h
    have := congrArg List.length h
    simp [document, frame_length, members] at this

/-- **C61** (partial): every other value that has a serialisation is written as that (`C12_document`), and its
payload starts with its type byte. Missing: NAN and INF. -/
theorem C61_bson_partial (E : Env) (k : Bytes) (v : Val) (h : Writable v) :
    value2Bson E (.obj true [(k, v)]) [] = .ok (frame (ty (data E v) :: k ++ 0 :: payload (data E v))) := by
  rw [C12_document E true [(k, v)] [] ⟨h, trivial⟩]
  simp [document, dataM, members]

/-! ## C62 -/

/-- **C62** (partial): a binary element of a subtype other than 2 consumes exactly its bytes, and yields the
subtype byte followed by the data. Missing: subtype 2, for which it is false. -/
theorem C62_binary_partial (E : Env) (hid r d : Bytes) (sub : UInt8) (hs : sub ≠ 2) (hl : d.length < 2 ^ 31) :
    parseSimple E hid 5 (payload (.bin sub d) ++ r) = .ok ((payload (.bin sub d)).length, .bin 0 (sub :: d)) := by
  have h1 : uint32 hid (le 4 d.length ++ sub :: d ++ r) = .ok d.length := by
    rw [List.append_assoc]; exact uint32_le hid _ _ (by omega)
  have h2 : MsgPack.sliceFrom 4 (le 4 d.length ++ sub :: d ++ r) = .ok (sub :: d ++ r) := by
    simp [MsgPack.sliceFrom, le]
  have h3 : sliceTo hid (d.length + 1) (sub :: d ++ r) = .ok (sub :: d) :=
    sliceTo_pre hid (sub :: d) _ _ (by simp)
  simp only [List.append_assoc, List.cons_append] at h1 h2 h3
  simp [parseSimple, parseBinary, payload, h1, h2, h3, at_, hs]

/-- **C62 is false** for subtype 2 (whose data is, by the BSON specification, an inner length and the bytes): the
first four *data* bytes are taken for a length `m`, and the value is what lies 9 bytes further on. -/
theorem C62_subtype2_wrong (E : Env) (hid y r : Bytes) (m : Nat) (hm : m + 5 ≤ y.length + r.length)
    (hl : y.length < 2 ^ 30) (hm' : m < 2 ^ 32) :
    parseSimple E hid 5 (payload (.bin 2 (le 4 (4 + y.length) ++ (le 4 m ++ y))) ++ r) =
      .ok (9 + m, .bin 0 (((y ++ r).drop 5).take m)) := by
  have h1 : ∀ n q, n < 2 ^ 32 → uint32 hid (le 4 n ++ q) = .ok n := fun n q h => uint32_le hid q n h
  have h2 : ∀ n (q : Bytes), MsgPack.sliceFrom 4 (le 4 n ++ q) = .ok q := by
    intro n q; simp [MsgPack.sliceFrom, le]
  have h3 : ∀ n (q : Bytes), MsgPack.sliceFrom 5 (2 :: (le 4 n ++ q)) = .ok q := by
    intro n q; simp [MsgPack.sliceFrom, le]
  have h4 : MsgPack.sliceFrom 9 (le 4 m ++ (y ++ r)) = .ok ((y ++ r).drop 5) := by
    unfold MsgPack.sliceFrom
    rw [if_pos (by simp; omega)]
    simp [le]
  have h5 : sliceTo hid m ((y ++ r).drop 5) = .ok (((y ++ r).drop 5).take m) := by
    unfold sliceTo
    rw [if_pos (by simp; omega), List.take_append_of_le_length (by simp; omega)]
  have hpl : (le 4 (4 + y.length) ++ (le 4 m ++ y)).length = 8 + y.length := by simp; omega
  simp only [parseSimple, parseBinary, payload, hpl, List.append_assoc, List.cons_append]
  rw [h1 _ _ (by omega), h2]
  simp only [Res.bind_ok, at_, List.getElem?_cons_zero, beq_self_eq_true, if_true, h3, h4,
    h1 m _ hm', h5]
  show (if m > ((y ++ r).drop 5).length then _ else _) = _
  rw [if_neg (by simp; omega)]

/-- Both shapes occur: 3 data bytes of subtype 0; subtype 2 holding `00000000` followed by 5 bytes decodes to the
empty binary. -/
example : parseSimple envEx [] 5 ([3, 0, 0, 0, 0, 1, 2, 3] ++ [99]) = .ok (8, .bin 0 [0, 1, 2, 3]) ∧
    parseSimple envEx [] 5 [13, 0, 0, 0, 2, 9, 0, 0, 0, 0, 0, 0, 0, 1, 2, 3, 4, 5] = .ok (9, .bin 0 []) := by decide

/-! ## C63 (BSON part) -/

/-- **C63** (partial): names repeated in a document keep their first position and get their last value, provided
the repetition is not a document or array. Missing: repeated containers, see the next theorem. -/
theorem C63_bson_partial (E : Env) (hE : IndexLaw E) (hid rest : Bytes) (kvs : List (Bytes × BElem))
    (hw : WF (.doc kvs)) (hne : kvs ≠ []) (hr : ReadableM E kvs)
    (hc : kvs.Pairwise (fun a b => isContainer b.2 = true → E.keyMatch a.1 b.1 = false)) :
    ∃ vs, DenotesM E kvs vs ∧
      newValueFromBson E hid (document kvs ++ rest) = .ok (.obj true (Assoc.lastWins E.keyMatch vs)) :=
  newValue_doc E hE hid kvs rest hw ⟨hne, hc, hr⟩

example : newValueFromBson envEx [] (document [([97], .int32 1), ([98], .bool true), ([97], .str [120])]) =
    .ok (.obj true [([97], .str [120]), ([98], .tru)]) := by decide

/-- Decoding a document into an object that already has members. -/
theorem parseElem_into (E : Env) (hE : IndexLaw E) (hid : Bytes) (kvs : List (Bytes × BElem)) (r : Bytes) (ku : Bool)
    (acc : List (Bytes × Val)) (f : Nat) (hw : WF (.doc kvs)) (hr : Readable E (.doc kvs))
    (hku : ku = true ∨ acc = [])
    (hac : ∀ a ∈ acc, ∀ kv ∈ kvs, isContainer kv.2 = true → E.keyMatch a.1 kv.1 = false)
    (hf : 2 * (document kvs ++ r).length + 3 ≤ f) :
    ∃ vs, DenotesM E kvs vs ∧ parseElem E hid f 3 (document kvs ++ r) (.obj ku acc) =
      .ok ((document kvs).length, .obj true (Assoc.putAll E.keyMatch acc vs)) := by
  obtain ⟨hw, hwm⟩ := hw
  obtain ⟨hne, hp, hrm⟩ := hr
  have hdl : (document kvs).length = (members kvs).length + 5 := by simp [document, frame_length]
  have hfl : (document kvs ++ r).length = (members kvs).length + 5 + r.length := by simp [hdl]
  obtain ⟨f, rfl⟩ : ∃ g, f = g + 2 := ⟨f - 2, by omega⟩
  obtain ⟨vs, hv, e⟩ := decM_ok E hE hid kvs r (document kvs ++ r) ((members kvs).length + 5) 4 f
    ku acc (frame_drop _ _) (by omega) hne hwm hrm hp hku hac (by omega)
  refine ⟨vs, hv, ?_⟩
  have hu : uint32 hid (document kvs ++ r) = .ok ((members kvs).length + 5) := by
    unfold document frame
    rw [List.append_assoc, List.append_assoc]
    exact uint32_le hid _ _ (by omega)
  rw [parseElem]
  simp only [show ((3 : UInt8) == 4) = false from rfl, beq_self_eq_true, if_true, Bool.false_eq_true, if_false]
  rw [parseDoc, if_neg (by omega), hu]
  simp only [Res.bind_ok]
  rw [if_neg (by omega), e, hdl]
  rfl

theorem denotesM_keys (E : Env) : ∀ (kvs : List (Bytes × BElem)) (vs : List (Bytes × Val)), DenotesM E kvs vs →
    vs.map Prod.fst = kvs.map Prod.fst
  | [], vs, h => by have h : vs = [] := h; subst h; rfl
  | (k, e) :: kvs, vs, h => by
    obtain ⟨v, vs', rfl, _, h2⟩ := h
    simp [denotesM_keys E kvs vs' h2]

/-- **C63 is false** for repeated documents: `{k: m1, k: m2}` decodes to `{k: m1 together with m2}`, not to
`{k: m2}`. For all keys and all (non-empty, readable) documents `m1`, `m2` without common names. -/
theorem C63_bson_merged (E : Env) (hE : IndexLaw E) (hm : ∀ k, E.keyMatch k k = true) (hid rest k : Bytes)
    (m1 m2 : List (Bytes × BElem)) (hk : (0 : UInt8) ∉ k) (hw : WF (.doc [(k, .doc m1), (k, .doc m2)]))
    (hr1 : Readable E (.doc m1)) (hr2 : Readable E (.doc m2)) (hd1 : Assoc.Distinct E.keyMatch m1)
    (hd2 : Assoc.Distinct E.keyMatch m2) (hd : ∀ a ∈ m1, ∀ c ∈ m2, E.keyMatch a.1 c.1 = false) :
    ∃ vs1 vs2, DenotesM E m1 vs1 ∧ DenotesM E m2 vs2 ∧
      newValueFromBson E hid (document [(k, .doc m1), (k, .doc m2)] ++ rest) =
        .ok (.obj true [(k, .obj true (vs1 ++ vs2))]) := by
  obtain ⟨hwl, -, hw1, -, hw2, -⟩ := hw
  generalize hbg : document [(k, .doc m1), (k, .doc m2)] ++ rest = b
  have hdl : ∀ m, (document m).length = (members m).length + 5 := fun m => by simp [document, frame_length]
  have hml : (members [(k, .doc m1), (k, .doc m2)]).length =
      2 * k.length + (document m1).length + (document m2).length + 4 := by
    simp [members, payload, document]; omega
  have hbl : b.length = (members [(k, .doc m1), (k, .doc m2)]).length + 5 + rest.length := by
    rw [← hbg]; simp [document, frame_length]
  have hb : b.drop 4 = 3 :: (k ++ 0 :: (document m1 ++ (3 :: (k ++ 0 :: (document m2 ++ 0 :: rest))))) := by
    rw [← hbg, document, frame_drop]
    simp [members, payload, ty, document]
  have hu : uint32 hid b = .ok ((members [(k, .doc m1), (k, .doc m2)]).length + 5) := by
    rw [← hbg]
    unfold document frame
    rw [List.append_assoc, List.append_assoc]
    exact uint32_le hid _ _ (by omega)
  generalize hN : (members [(k, .doc m1), (k, .doc m2)]).length = N at *
  have step : ∀ (pi : Nat) (d q : Bytes), b.drop pi = 3 :: (k ++ 0 :: (d ++ q)) →
      b.drop (pi + 1) = k ++ 0 :: (d ++ q) ∧ b.drop (pi + 1 + k.length + 1) = d ++ q ∧
      b.drop (pi + 1 + k.length + 1 + d.length) = q := by
    intro pi d q h
    have h1 : b.drop (pi + 1) = k ++ 0 :: (d ++ q) := by
      have := drop_after b [3] _ pi 1 h rfl
      simpa using this
    have h2 : b.drop (pi + 1 + k.length + 1) = d ++ q := by
      have := drop_after b (k ++ [0]) (d ++ q) (pi + 1) (k.length + 1) (by rw [h1]; simp) (by simp)
      rw [← this]; rfl
    exact ⟨h1, h2, drop_after b _ _ _ _ h2 rfl⟩
  obtain ⟨hb1, hb2, hb3⟩ := step 4 _ _ hb
  obtain ⟨hc1, hc2, hc3⟩ := step _ _ _ hb3
  have h1 := hdl m1
  have h2 := hdl m2
  obtain ⟨vs1, hv1, e1⟩ := parseElem_into E hE hid m1 (3 :: (k ++ 0 :: (document m2 ++ 0 :: rest))) false []
    (2 * b.length) hw1 hr1 (Or.inr rfl) (by simp) (by simp; omega)
  rw [Assoc.putAll_distinct (by unfold Assoc.Distinct; rw [denotesM_keys E m1 vs1 hv1]; exact hd1) (by simp),
    List.nil_append] at e1
  have hk1 := denotesM_keys E m1 vs1 hv1
  have hdd : ∀ a ∈ vs1, ∀ kv ∈ m2, E.keyMatch a.1 kv.1 = false := by
    intro a ha kv hkv
    have : a.1 ∈ m1.map Prod.fst := by rw [← hk1]; exact List.mem_map_of_mem ha
    obtain ⟨x, hx, ex⟩ := List.mem_map.1 this
    rw [← ex]
    exact hd x hx kv hkv
  obtain ⟨vs2, hv2, e2⟩ := parseElem_into E hE hid m2 (0 :: rest) true vs1
    (2 * b.length - 1) hw2 hr2 (Or.inl rfl) (fun a ha kv hkv _ => hdd a ha kv hkv) (by simp; omega)
  have hk2 := denotesM_keys E m2 vs2 hv2
  rw [Assoc.putAll_distinct (by unfold Assoc.Distinct; rw [hk2]; exact hd2) (by
    intro a ha kv hkv
    have : kv.1 ∈ m2.map Prod.fst := by rw [← hk2]; exact List.mem_map_of_mem hkv
    obtain ⟨x, hx, ex⟩ := List.mem_map.1 this
    rw [← ex]
    exact hdd a ha x hx)] at e2
  refine ⟨vs1, vs2, hv1, hv2, ?_⟩
  have hidx : indexByName E false ([] : List (Bytes × Val)) k = (none, true, []) := indexByName_new (Or.inr rfl) (by simp)
  have hidx2 : indexByName E true [(k, Val.obj true vs1)] k = (some 0, true, [(k, Val.obj true vs1)]) := by
    rw [indexByName_acc (Or.inl rfl)]
    simp [findKey, List.findIdx?_cons, hm]
  unfold newValueFromBson
  rw [parseDoc, if_neg (by omega), hu]
  simp only [Res.bind_ok]
  rw [if_neg (by omega), docLoop, if_pos (by omega), at_drop b 4 _ _ hb]
  simp only [Res.bind_ok, hb1, idxOf_key k _ hk, List.take_left, hidx, hb2]
  rw [show blank (targetType 3) = .obj false [] from rfl, e1]
  simp only [Res.bind_ok, List.nil_append]
  rw [if_neg (by omega)]
  obtain ⟨g, hg⟩ : ∃ g, 2 * b.length = g + 1 := ⟨2 * b.length - 1, by omega⟩
  rw [hg] at e2 ⊢
  rw [docLoop, if_pos (by omega), at_drop b _ _ _ hb3]
  simp only [Res.bind_ok, hc1, idxOf_key k _ hk, List.take_left, hidx2, hc2]
  simp only [List.getElem?_cons_zero, Option.map_some, Option.getD_some]
  rw [show settle (targetType 3) (.obj true vs1) = .obj true vs1 from rfl, show g = g + 1 - 1 by omega, e2]
  simp only [Res.bind_ok]
  rw [if_pos (end_check b _ _ rest hc3 (by omega))]
  rfl

/-- Non-vacuity: `{"k": {"a": true}, "k": {"b": true}}`. -/
example : newValueFromBson envEx [] (document [([107], .doc [([97], .bool true)]), ([107], .doc [([98], .bool true)])]) =
    .ok (.obj true [([107], .obj true [([97], .tru), ([98], .tru)])]) := by decide

/-! ## C64 -/

/-- **C64 is false** (1): whatever follows, a length field below 5 is accepted as an empty object. -/
theorem C64_short_length (E : Env) (hid r : Bytes) (n : Nat) (hn : n ≤ 4) (hr : r ≠ []) :
    newValueFromBson E hid (le 4 n ++ r) = .ok (.obj false []) := by
  have hpos : 0 < r.length := List.length_pos_iff.2 hr
  have hl : (le 4 n ++ r).length = 4 + r.length := by simp
  unfold newValueFromBson
  rw [parseDoc, if_neg (by omega), uint32_le hid _ _ (by omega)]
  simp only [Res.bind_ok]
  rw [if_neg (by omega), docLoop, if_neg (by omega)]
  rfl

/-- **C64 is false** (2): documents without the final zero byte are accepted. -/
theorem C64_no_terminator (E : Env) (hid k : Bytes) (hk : (0 : UInt8) ∉ k) (hl : k.length < 2 ^ 30) :
    newValueFromBson E hid (le 4 (k.length + 6) ++ (10 :: (k ++ [0]))) = .ok (.obj true [(k, .null)]) := by
  generalize hbg : le 4 (k.length + 6) ++ (10 :: (k ++ [0])) = b
  have hbl : b.length = k.length + 6 := by rw [← hbg]; simp; omega
  have hu : uint32 hid b = .ok (k.length + 6) := by
    rw [← hbg]; exact uint32_le hid _ _ (by omega)
  have hb : b.drop 4 = 10 :: (k ++ 0 :: []) := by rw [← hbg]; simp [le]
  have hb1 : b.drop (4 + 1) = k ++ 0 :: [] := by
    have := drop_after b [10] _ 4 1 hb rfl
    simpa using this
  have hidx : indexByName E false [] k = (none, true, []) := indexByName_new (Or.inr rfl) (by simp)
  unfold newValueFromBson
  rw [parseDoc, if_neg (by omega), hu]
  simp only [Res.bind_ok]
  rw [if_neg (by omega), docLoop, if_pos (by omega), at_drop b 4 _ _ hb]
  simp only [Res.bind_ok, hb1, idxOf_key k _ hk, List.take_left, hidx]
  obtain ⟨g, hg⟩ : ∃ g, 2 * b.length = g + 1 := ⟨2 * b.length - 1, by omega⟩
  rw [hg, parseElem]
  rotate_left
  · intro xs h; cases h
  · intro ku kvs h; cases h
  simp only [parseSimple]
  simp only [show ((10 : UInt8) == 4) = false from rfl, show ((10 : UInt8) == 3) = false from rfl,
    show ((10 : UInt8) == 1) = false from rfl, show ((10 : UInt8) == 2) = false from rfl,
    show ((10 : UInt8) == 5) = false from rfl, show ((10 : UInt8) == 7) = false from rfl,
    show ((10 : UInt8) == 8) = false from rfl, show ((10 : UInt8) == 9) = false from rfl,
    show ((10 : UInt8) == 0x10) = false from rfl, show ((10 : UInt8) == 0x11) = false from rfl,
    show ((10 : UInt8) == 0x12) = false from rfl, show ((10 : UInt8) == 0x13) = false from rfl,
    Bool.false_eq_true, if_false, Res.bind_ok]
  rw [if_neg (by omega), docLoop, if_neg (by omega)]
  rfl

/-- **C64** (partial): an accepted document is at least as long as its length field says. Missing: the checks
that the length is at least 5 and that the document ends in zero. -/
theorem C64_length_partial (E : Env) (hid b : Bytes) (v : Val) (h : newValueFromBson E hid b = .ok v) :
    5 ≤ b.length ∧ ∃ n, uint32 hid b = .ok n ∧ n ≤ b.length := by
  unfold newValueFromBson at h
  rw [Res.bind_eq_ok] at h
  obtain ⟨a, h, -⟩ := h
  rw [parseDoc] at h
  split at h
  · cases h
  · rename_i hl
    refine ⟨by omega, ?_⟩
    rw [Res.bind_eq_ok] at h
    obtain ⟨n, hn, h⟩ := h
    split at h
    · cases h
    · exact ⟨n, hn, by omega⟩

example : newValueFromBson envEx [] [0, 0, 0, 0, 1, 2, 3] = .ok (.obj false []) := by decide

/-! ## C65 (BSON part) -/

mutual
/-- A binary marked as ObjectID or Decimal128 that is shorter than 12 or 16 bytes occurs somewhere. -/
def HasShort : Val → Prop
  | .bin ext b => (ext = 7 ∧ b.length < 12) ∨ (ext = 19 ∧ b.length < 16)
  | .arr xs => HasShortL xs
  | .obj _ kvs => HasShortM kvs
  | _ => False
def HasShortL : List Val → Prop
  | [] => False
  | v :: vs => HasShort v ∨ HasShortL vs
def HasShortM : List (Bytes × Val) → Prop
  | [] => False
  | (_, v) :: kvs => HasShort v ∨ HasShortM kvs
end

theorem after_panic {dst : Bytes} {x : Res Bytes} : after dst x = .panic ↔ x = .panic := by
  cases x <;> simp [after]

theorem after_ok {dst : Bytes} {x : Res Bytes} {o : Bytes} : after dst x = .ok o ↔ ∃ p, x = .ok p ∧ o = dst ++ p := by
  cases x <;> simp [after, eq_comm]

mutual
theorem writeValue_panic (E : Env) : ∀ (v : Val) (dst : Bytes),
    (HasShort v → writeValue E v dst = .panic) ∧ (¬ HasShort v → ∃ o, writeValue E v dst = .ok o)
  | .obj ku kvs, dst => by
    obtain ⟨h1, h2⟩ := writeMembers_panic E ku kvs (dst ++ [0, 0, 0, 0])
    constructor
    · intro h; simp only [writeValue]; rw [h1 h]; rfl
    · intro h; obtain ⟨o, ho⟩ := h2 h; simp only [writeValue]; rw [ho]; exact ⟨_, rfl⟩
  | .arr xs, dst => by
    obtain ⟨h1, h2⟩ := writeElems_panic E xs 0 (dst ++ [0, 0, 0, 0])
    constructor
    · intro h; simp only [writeValue]; rw [h1 h]; rfl
    · intro h; obtain ⟨o, ho⟩ := h2 h; simp only [writeValue]; rw [ho]; exact ⟨_, rfl⟩
  | .bin ext b, dst => by
    simp only [HasShort, writeValue, simpleValue, binTo]
    by_cases h7 : ext = 7
    · subst h7
      by_cases hl : 12 ≤ b.length
      · simp [hl]
      · simp [hl]
    · by_cases h19 : ext = 19
      · subst h19
        by_cases hl : 16 ≤ b.length
        · simp [hl]
        · simp [hl]
      · simp [h7, h19]
  | .int ext c, dst => by
    simp only [HasShort, writeValue, simpleValue]
    refine ⟨False.elim, fun _ => ?_⟩
    (repeat' split) <;> exact ⟨_, rfl⟩
  | .exbin ext c, dst => by
    simp only [HasShort, writeValue, simpleValue]
    refine ⟨False.elim, fun _ => ?_⟩
    (repeat' split) <;> exact ⟨_, rfl⟩
  | .nil, _ | .str _, _ | .raw _, _ | .float _, _ | .double _, _
  | .dateTime _, _ | .null, _ | .tru, _ | .fls, _
  | .nan, _ | .inf, _ => ⟨False.elim, fun _ => ⟨_, rfl⟩⟩
theorem writeMembers_panic (E : Env) (ku : Bool) : ∀ (kvs : List (Bytes × Val)) (dst : Bytes),
    (HasShortM kvs → writeMembers E ku kvs dst = .panic) ∧ (¬ HasShortM kvs → ∃ o, writeMembers E ku kvs dst = .ok o)
  | [], dst => ⟨False.elim, fun _ => ⟨_, rfl⟩⟩
  | (k, v) :: kvs, dst => by
    obtain ⟨h1, h2⟩ := writeValue_panic E v (dst ++ elementType v ++ (if ku then k else E.unesc k) ++ [0])
    simp only [HasShortM, writeMembers]
    by_cases hv : HasShort v
    · rw [h1 hv]; simp [hv]
    · obtain ⟨o, ho⟩ := h2 hv
      obtain ⟨h3, h4⟩ := writeMembers_panic E ku kvs o
      rw [ho]
      simpa [hv] using ⟨h3, h4⟩
theorem writeElems_panic (E : Env) : ∀ (vs : List Val) (i : Nat) (dst : Bytes),
    (HasShortL vs → writeElems E vs i dst = .panic) ∧ (¬ HasShortL vs → ∃ o, writeElems E vs i dst = .ok o)
  | [], i, dst => ⟨False.elim, fun _ => ⟨_, rfl⟩⟩
  | v :: vs, i, dst => by
    obtain ⟨h1, h2⟩ := writeValue_panic E v (dst ++ elementType v ++ decNat i ++ [0])
    simp only [HasShortL, writeElems]
    by_cases hv : HasShort v
    · rw [h1 hv]; simp [hv]
    · obtain ⟨o, ho⟩ := h2 hv
      obtain ⟨h3, h4⟩ := writeElems_panic E vs (i + 1) o
      rw [ho]
      simpa [hv] using ⟨h3, h4⟩
end

/-- **C65 is false** for BSON, and this is exactly when: `Value2Bson` panics for a nil value and for containers
that hold, at any depth, an ObjectID or Decimal128 that is too short. -/
theorem C65_bson_panics (E : Env) (v : Val) (dst : Bytes) :
    value2Bson E v dst = .panic ↔ v = .nil ∨ ((v.vt = .object ∨ v.vt = .array) ∧ HasShort v) := by
  have key : writeValue E v dst = .panic ↔ HasShort v := by
    obtain ⟨h1, h2⟩ := writeValue_panic E v dst
    by_cases h : HasShort v
    · simp [h1 h, h]
    · obtain ⟨o, ho⟩ := h2 h
      simp [ho, h]
  cases v <;> simp only [value2Bson] <;> simp [Val.vt] <;> exact key

/-- **C65** (partial): every other value is written, or rejected with an error. Missing: nil and short tagged
binaries. -/
theorem C65_bson_partial (E : Env) (v : Val) (dst : Bytes) (hn : v ≠ .nil) (h : ¬ HasShort v) :
    (∃ o, value2Bson E v dst = .ok o) ∨ ∃ e, value2Bson E v dst = .err e := by
  have key := (writeValue_panic E v dst).2 h
  cases v <;> simp only [value2Bson] <;> first | exact .inl key | exact .inr ⟨_, rfl⟩ | exact absurd rfl hn

example : HasShort (.arr [.obj true [([97], .bin 7 [1, 2])]]) ∧ ¬ HasShort (.arr [.bin 0 [], .int 0 3]) := by
  simp [HasShort, HasShortL, HasShortM]

/-! ## C68 -/

/-- **C68 is false**: the index under which an array element is written is ignored unless it lies inside the part
already read. The element of a one-element array may have any index but -1 and always becomes element 0. -/
theorem C68_index_ignored (E : Env) (hid s rest : Bytes) (c : BitVec 64) (f : Nat) (hs : (0 : UInt8) ∉ s)
    (hl : s.length < 2 ^ 30) (hc : E.strToInt s = some c) (h1 : c.toInt ≠ -1) :
    parseArr E hid (f + 3) (frame (8 :: (s ++ [0, 1])) ++ rest) [] = .ok (s.length + 8, .arr [.tru]) := by
  generalize hbg : frame (8 :: (s ++ [0, 1])) ++ rest = b
  have hbl : b.length = s.length + 8 + rest.length := by rw [← hbg]; simp [frame_length]
  have hu : uint32 hid b = .ok (s.length + 8) := by
    rw [← hbg]; unfold frame
    rw [List.append_assoc, List.append_assoc]
    have : (8 :: (s ++ [0, 1])).length + 5 = s.length + 8 := by simp
    rw [this]
    exact uint32_le hid _ _ (by omega)
  have hb : b.drop 4 = 8 :: (s ++ 0 :: (1 :: 0 :: rest)) := by rw [← hbg, frame_drop]; simp
  have hb1 : b.drop (4 + 1) = s ++ 0 :: (1 :: 0 :: rest) := by
    have := drop_after b [8] _ 4 1 hb rfl
    simpa using this
  have hb2 : b.drop (4 + 1 + s.length + 1) = 1 :: 0 :: rest := by
    have := drop_after b (s ++ [0]) (1 :: 0 :: rest) (4 + 1) (s.length + 1) (by rw [hb1]; simp) (by simp)
    rw [← this]; rfl
  have hb3 : b.drop (4 + 1 + s.length + 1 + 1) = 0 :: rest := by
    have := drop_after b [1] _ _ 1 hb2 rfl
    simpa using this
  rw [parseArr, hu]
  simp only [Res.bind_ok]
  rw [if_neg (by omega), arrLoop, if_pos (by omega), at_drop b 4 _ _ hb]
  simp only [Res.bind_ok, hb1, idxOf_key s _ hs, List.take_left, hc, Option.map_some, Option.getD_some]
  rw [if_neg h1, if_neg (by simp)]
  rw [hb2, parseElem]
  simp only [parseSimple, at_]
  · have := end_check b _ (s.length + 8) rest hb3 (by omega)
    simp
    rw [if_pos ⟨by omega, this.2⟩]
    rfl
  all_goals (intros; simp_all [blank, targetType])

example : envEx.strToInt [45, 53] = some (-5) ∧ (-5 : BitVec 64).toInt ≠ -1 := by decide

/-- **C68** (partial): arrays written according to the specification (indices 0, 1, 2, ...) are read in order.
Missing: other indices are not rejected. -/
theorem C68_in_order_partial (E : Env) (hE : IndexLaw E) (hid rest k : Bytes) (xs : List BElem)
    (hw : WF (.doc [(k, .arr xs)])) (hr : Readable E (.arr xs)) :
    ∃ vs, DenotesL E xs vs ∧
      newValueFromBson E hid (document [(k, .arr xs)] ++ rest) = .ok (.obj true [(k, .arr vs)]) := by
  obtain ⟨vs, hv, e⟩ := newValue_doc E hE hid [(k, .arr xs)] rest hw ⟨by simp, by simp, hr, trivial⟩
  obtain ⟨v, vs', rfl, ⟨ws, rfl, hws⟩, hv2⟩ := hv
  have hv2 : vs' = [] := hv2
  subst hv2
  rw [Assoc.lastWins_distinct (by simp [Assoc.Distinct])] at e
  exact ⟨ws, hws, e⟩

end Dxs.Bson
