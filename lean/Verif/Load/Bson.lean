import Verif.Load.Into
import Verif.Bson.Model

/-!
# The BSON decoder in memory (bson_parse.go)

The decoder writes into a value that is given: for each element it asks the enclosing value for a member (`SetKeyCached`,
`SetIndexCached`) and fills that. It writes `DataType` and `ExtType` directly, so what it is given must not be one of the shared
constants.
-/

namespace Dxs.Heap
open Bson (uint32 uint64 at_ sliceTo slice targetType)

/-- A call that returns a node. `SetKeyCached` returns no errors. -/
def Out.liftH {α : Type} (r : Res (α × Heap)) : Out α :=
  match r with
  | .ok (a, h) => .ok a h
  | .loop => .loop
  | _ => .panic

/-- The binary branch of `parseValue`, bson_parse.go:176-206, on the element `q`: the number of bytes consumed. -/
def bsonBinaryH (hid : Bytes) (b : Bytes) (q : Ptr) (h : Heap) : Out Nat :=
  let h := h.upd q (fun n => { n with dt := .exBinary, ext := 5 })
  (Out.lift (uint32 hid b) h).bind fun n h =>
  (Out.lift (MsgPack.sliceFrom 4 b) h).bind fun b h =>
  (Out.lift (at_ b 0) h).bind fun sub h =>
  if sub == 2 then
    (Out.lift (MsgPack.sliceFrom 5 b) h).bind fun b h =>
    (Out.lift (uint32 hid b) h).bind fun n h =>
    (Out.lift (MsgPack.sliceFrom 9 b) h).bind fun b h =>
    if n > b.length then .err .invalidBson h
    else
      let h := h.upd q (fun n => { n with dt := .binary, ext := 0 })
      (Out.lift (sliceTo hid n b) h).bind fun d h => .ok (9 + n) (setBinary h q d)
  else
    (Out.lift (sliceTo hid (n + 1) b) h).bind fun d h => .ok (4 + (n + 1)) (setBinary h q d)

/-- `parseValue`, bson_parse.go:158-255, on the element `q`. -/
def bsonSimpleH (E : Env) (hid : Bytes) (ty : UInt8) (b : Bytes) (q : Ptr) (h : Heap) : Out Nat :=
  if ty == 0x01 then (Out.lift (uint64 hid b) h).bind fun w h => .ok 8 (setDouble h q (BitVec.ofNat 64 w))
  else if ty == 0x02 then
    (Out.lift (uint32 hid b) h).bind fun n h =>
    (Out.lift (if n = 0 then .panic else slice hid 4 (4 + n - 1) b) h).bind fun s h => .ok (4 + n) (setString h q s)
  else if ty == 0x05 then bsonBinaryH hid b q h
  else if ty == 0x07 then
    (Out.lift (sliceTo hid 12 b) h).bind fun d h => .ok 12 (setBinary (h.upd q (fun n => { n with dt := .binary, ext := 7 })) q d)
  else if ty == 0x08 then
    (Out.lift (at_ b 0) h).bind fun x h => .ok 1 (h.upd q (fun n => { n with dt := if x == 1 then .true else .false }))
  else if ty == 0x09 then (Out.lift (uint64 hid b) h).bind fun w h => .ok 8 (setTime h q (E.ofMilli (BitVec.ofNat 64 w)))
  else if ty == 0x10 then (Out.lift (uint32 hid b) h).bind fun w h => .ok 4 (setInt h q (BitVec.ofNat 64 w))
  else if ty == 0x11 then
    (Out.lift (uint64 hid b) h).bind fun w h => .ok 8 (h.upd q (fun n => { n with ext := 17, dt := .int, cell := BitVec.ofNat 64 w }))
  else if ty == 0x12 then (Out.lift (uint64 hid b) h).bind fun w h => .ok 8 (setInt h q (BitVec.ofNat 64 w))
  else if ty == 0x13 then
    (Out.lift (sliceTo hid 16 b) h).bind fun d h => .ok 16 (setBinary (h.upd q (fun n => { n with dt := .binary, ext := 19 })) q d)
  else .ok 0 h

mutual
/-- `parseBsonDocument`, bson_parse.go:24-88, into the value `p`; the result is `docLen`. -/
def bsonDocH (E : Env) (hid : Bytes) (c : Option CId) : Nat → Bytes → Ptr → Heap → Out Nat
  | 0, _, _, _ => .loop
  | fuel + 1, b, p, h =>
    if b.length ≤ 4 then .err .badBsonLen h
    else
      (Out.lift (uint32 hid b) h).bind fun docLen h =>
      if docLen > b.length then .err .badBsonLen h
      else (bsonDocLoopH E hid c fuel b docLen 4 p h).bind fun _ h => .ok docLen h
termination_by structural x => x
/-- The loop of `parseBsonDocument`, bson_parse.go:38-86. -/
def bsonDocLoopH (E : Env) (hid : Bytes) (c : Option CId) : Nat → Bytes → Nat → Nat → Ptr → Heap → Out Unit
  | 0, _, _, _, _, _ => .loop
  | fuel + 1, b, docLen, pi, p, h =>
    if pi < docLen then
      (Out.lift (at_ b pi) h).bind fun ty h =>
      match (b.drop (pi + 1)).idxOf? 0 with
      | none => .err .invalidBson h
      | some k =>
        (Out.liftH (setKeyCached E h p ((b.drop (pi + 1)).take k) (targetType ty) c)).bind fun q h =>
        (bsonElemH E hid c fuel ty (b.drop (pi + 1 + k + 1)) q h).bind fun n h =>
        if pi + 1 + k + 1 + n = docLen - 1 ∧ b[pi + 1 + k + 1 + n]? = some 0 then .ok () h
        else bsonDocLoopH E hid c fuel b docLen (pi + 1 + k + 1 + n) p h
    else .ok () h
termination_by structural x => x
/-- The `switch btype` of bson_parse.go:56-81 and 125-150 on the element `q`. -/
def bsonElemH (E : Env) (hid : Bytes) (c : Option CId) : Nat → UInt8 → Bytes → Ptr → Heap → Out Nat
  | 0, _, _, _, _ => .loop
  | fuel + 1, ty, b, q, h =>
    if ty == 0x04 then bsonArrH E hid c fuel b q h
    else if ty == 0x03 then bsonDocH E hid c fuel b q h
    else bsonSimpleH E hid ty b q h
termination_by structural x => x
/-- `parseBsonArray`, bson_parse.go:91-156. -/
def bsonArrH (E : Env) (hid : Bytes) (c : Option CId) : Nat → Bytes → Ptr → Heap → Out Nat
  | 0, _, _, _ => .loop
  | fuel + 1, b, p, h =>
    (Out.lift (uint32 hid b) h).bind fun docLen h =>
    if docLen > b.length then .err .badBsonLen h
    else (bsonArrLoopH E hid c fuel b docLen 4 p h).bind fun _ h => .ok docLen h
termination_by structural x => x
/-- The loop of `parseBsonArray`, bson_parse.go:102-154. -/
def bsonArrLoopH (E : Env) (hid : Bytes) (c : Option CId) : Nat → Bytes → Nat → Nat → Ptr → Heap → Out Unit
  | 0, _, _, _, _, _ => .loop
  | fuel + 1, b, docLen, pi, p, h =>
    if pi < docLen then
      (Out.lift (at_ b pi) h).bind fun ty h =>
      match (b.drop (pi + 1)).idxOf? 0 with
      | none => .err .invalidBson h
      | some k =>
        let idx : Int := ((E.strToInt ((b.drop (pi + 1)).take k)).map BitVec.toInt).getD (-1)
        if idx = -1 then .err .bsonArrayIndex h
        else
          let r := setIndexCached h p idx (targetType ty) c
          (bsonElemH E hid c fuel ty (b.drop (pi + 1 + k + 1)) r.1 r.2).bind fun n h =>
          if pi + 1 + k + 1 + n = docLen - 1 ∧ b[pi + 1 + k + 1 + n]? = some 0 then .ok () h
          else bsonArrLoopH E hid c fuel b docLen (pi + 1 + k + 1 + n) p h
    else .ok () h
termination_by structural x => x
end

/-- The decoder on a new object from the cache `c`, bson_parse.go:264-269. A failed parse frees nothing. -/
def bsonRootH (E : Env) (hid : Bytes) (h : Heap) (b : Bytes) (c : Option CId) : Out (Option Ptr) :=
  let r := getValue h c .object
  (bsonDocH E hid c (2 * b.length + 2) b r.1 r.2).bind fun _ h => .ok (some r.1) h

/-- `NewValueFromBson`, bson_parse.go:257-270; `pick` is what the pool returns. -/
def newValueFromBsonH (E : Env) (hid : Bytes) (h : Heap) (b : Bytes) (useCache : Bool) (pick : Option Nat) : Out (Option Ptr) :=
  if useCache then
    let (c, h) := getCache h pick
    bsonRootH E hid h b (some c)
  else bsonRootH E hid h b none

/-- `LoadFromBson`, dxvalue.go:309-316. -/
def loadBsonH (E : Env) (hid : Bytes) (h : Heap) (p : Ptr) (b : Bytes) : Out Unit :=
  let h := Heap.clear h p
  if b = [] then .ok () h
  else (bsonDocH E hid (h.mem p).owner (2 * b.length + 2) b p h).bind fun _ h => .ok () h

/-! ## The decoder never meets a constant -/

/-- A set of nodes that is closed under "member of" and "element of": its members and elements exist and are not constants, and a null
value in it has no bytes. -/
structure Solid (S : Ptr → Prop) (h : Heap) : Prop where
  lt : ∀ p, S p → p < h.next
  kvs : ∀ p, S p → ∀ a ∈ (h.mem p).kvs.map Prod.snd, ∃ q, a = some q ∧ S q ∧ 5 ≤ q
  arr : ∀ p, S p → (h.mem p).dt = .array → ∀ a ∈ (h.mem p).arr, ∃ q, a = some q ∧ S q ∧ 5 ≤ q
  bin : ∀ p, S p → (h.mem p).dt = .null → (h.mem p).bin = []

/-- What one node of the set must satisfy. -/
structure NodeOk (S : Ptr → Prop) (n : Node) : Prop where
  kvs : ∀ a ∈ n.kvs.map Prod.snd, ∃ q, a = some q ∧ S q ∧ 5 ≤ q
  arr : n.dt = .array → ∀ a ∈ n.arr, ∃ q, a = some q ∧ S q ∧ 5 ≤ q
  bin : n.dt = .null → n.bin = []

theorem Solid.node {S : Ptr → Prop} {h : Heap} (s : Solid S h) {p : Ptr} (hp : S p) : NodeOk S (h.mem p) := ⟨s.kvs p hp, s.arr p hp, s.bin p hp⟩

theorem NodeOk.mono {S T : Ptr → Prop} {n : Node} (s : NodeOk S n) (hs : ∀ x, S x → T x) : NodeOk T n where
  kvs a ha := by obtain ⟨q, e, hq, h5⟩ := s.kvs a ha; exact ⟨q, e, hs q hq, h5⟩
  arr hd a ha := by obtain ⟨q, e, hq, h5⟩ := s.arr hd a ha; exact ⟨q, e, hs q hq, h5⟩
  bin := s.bin

theorem NodeOk.blank {S : Ptr → Prop} {n : Node} {t : VT} (b : Blank n t) : NodeOk S n :=
  ⟨by simp [b.kvs], by simp [b.arr], fun _ => b.bin⟩

theorem Solid.mk' {S : Ptr → Prop} {h : Heap} (lt : ∀ p, S p → p < h.next) (ok : ∀ p, S p → NodeOk S (h.mem p)) : Solid S h :=
  ⟨lt, fun p hp => (ok p hp).kvs, fun p hp => (ok p hp).arr, fun p hp => (ok p hp).bin⟩

/-- Writing one node of the set. -/
theorem Solid.set {S : Ptr → Prop} {h : Heap} (s : Solid S h) {p : Ptr} {n : Node} (hn : S p → NodeOk S n) : Solid S (h.set p n) := by
  refine Solid.mk' s.lt (fun q hq => ?_)
  by_cases e : q = p
  · subst e; rw [set_mem_same]; exact hn hq
  · rw [set_mem_ne _ _ e]; exact s.node hq

theorem Solid.upd {S : Ptr → Prop} {h : Heap} (s : Solid S h) {p : Ptr} {f : Node → Node} (hn : S p → NodeOk S (f (h.mem p))) : Solid S (h.upd p f) :=
  s.set hn

theorem Solid.reset {S : Ptr → Prop} {h : Heap} (s : Solid S h) (p : Ptr) (t : VT) : Solid S (Heap.reset h p t) := by
  unfold Heap.reset
  split
  · exact s
  · exact s.upd (fun _ => NodeOk.blank (Blank.reset _ _))

/-- Allocation does not touch other addresses below the limit. -/
theorem getValue_other {h : Heap} (I : Inv h) (c : Option CId) (t : VT) (hc : ∀ d, c = some d → d < h.nextC) {q : Ptr} (hq : q < h.next)
    (hne : q ≠ (getValue h c t).1) : (getValue h c t).2.mem q = h.mem q := by
  cases c with
  | some c =>
    obtain ⟨h1, p, g, hc1, hlt, rfl, he, heq⟩ := getValue_some h c t I (hc c rfl)
    rw [heq] at hne ⊢
    rw [set_mem_ne _ _ hne]
    show h1.mem q = h.mem q
    rw [he]
    split
    · rfl
    · simp only [growCache, Heap.setC]
      rw [if_neg (by omega)]
  | none =>
    simp only [getValue] at hne ⊢
    rw [set_mem_ne _ _ hne]
    simp only [newCache, newSlots, Heap.setC]
    rw [if_neg (by omega)]

/-- The set after an allocation. -/
def orPtr (S : Ptr → Prop) (p : Ptr) : Ptr → Prop := fun q => S q ∨ q = p

/-- The state stays in order, in a larger set, and `q` is in it and not a constant. -/
structure Found (S : Ptr → Prop) (h h' : Heap) (S' : Ptr → Prop) (q : Ptr) : Prop where
  solid : Solid S' h'
  le : ∀ x, S x → S' x
  mem : S' q
  ge : 5 ≤ q

theorem Solid.getValue {S : Ptr → Prop} {h : Heap} (s : Solid S h) (I : Inv h) (c : Option CId) (t : VT) (hc : ∀ d, c = some d → d < h.nextC) :
    Found S h (Heap.getValue h c t).2 (orPtr S (Heap.getValue h c t).1) (Heap.getValue h c t).1 := by
  have A := getValue_spec I c t hc
  have st := I.getValue_st (X := anyCache) c t hc (by simp)
  refine ⟨Solid.mk' ?_ ?_, fun x => Or.inl, Or.inr rfl, A.ge⟩
  · rintro p (hp | rfl)
    · exact Nat.lt_of_lt_of_le (s.lt p hp) st.next
    · rcases Nat.lt_or_ge (Heap.getValue h c t).1 (Heap.getValue h c t).2.next with h1 | h1
      · exact h1
      · exact absurd (Or.inl h1) A.isnt
  · intro p hp
    by_cases e : p = (Heap.getValue h c t).1
    · subst e; exact NodeOk.blank A.blank
    · rcases hp with hp | hp
      · rw [getValue_other I c t hc (s.lt p hp) e]
        exact (s.node hp).mono (fun x => Or.inl)
      · exact absurd hp e

theorem Found.put {S S' : Ptr → Prop} {h h' : Heap} {q : Ptr} (f : Found S h h' S' q) {p : Ptr} {g : Node → Node}
    (hn : S' p → NodeOk S' (g (h'.mem p))) : Found S h (h'.upd p g) S' q := ⟨f.solid.upd hn, f.le, f.mem, f.ge⟩

theorem Found.of {S : Ptr → Prop} {h h' : Heap} (s : Solid S h') {q : Ptr} (hq : S q ∧ 5 ≤ q) : Found S h h' S q := ⟨s, fun _ => id, hq.1, hq.2⟩

theorem Solid.setIndexCached {S : Ptr → Prop} {h : Heap} (s : Solid S h) (I : Inv h) {p : Ptr} (hp : S p) (h5 : 5 ≤ p) (idx : Int) (t : VT) (c : Option CId)
    (hc : ∀ d, c = some d → d < h.nextC) :
    ∃ S', Found S h (Heap.setIndexCached h p idx t c).2 S' (Heap.setIndexCached h p idx t c).1 := by
  unfold Heap.setIndexCached
  have hd : ((if (h.mem p).dt = .array then h else Heap.reset h p .array).mem p).dt = .array := by
    split
    · assumption
    · exact reset_dt h5 _
  have s1 : Solid S (if (h.mem p).dt = .array then h else Heap.reset h p .array) := by
    split
    · exact s
    · exact s.reset p _
  have I1 := (I.ifReset_st (X := anyCache) ((h.mem p).dt = .array) p .array)
  have hc1 : ∀ d, c = some d → d < (if (h.mem p).dt = .array then h else Heap.reset h p .array).nextC := fun d e => Nat.lt_of_lt_of_le (hc d e) I1.nextC
  have I1 := I1.inv
  generalize (if (h.mem p).dt = .array then h else Heap.reset h p .array) = h1 at *
  have new : ∀ g : Node → Node, (∀ n, (g n).kvs = n.kvs ∧ (g n).dt = n.dt ∧ (g n).bin = n.bin ∧
      ∀ a ∈ (g n).arr, a ∈ n.arr ∨ a = some (Heap.getValue h1 c t).1) →
      ∃ S', Found S h ((Heap.getValue h1 c t).2.upd p g) S' (Heap.getValue h1 c t).1 := by
    intro g hg
    have f := s1.getValue I1 c t hc1
    refine ⟨_, Found.put ⟨f.solid, f.le, f.mem, f.ge⟩ (fun hS => ?_)⟩
    obtain ⟨e1, e2, e3, e4⟩ := hg ((Heap.getValue h1 c t).2.mem p)
    have ok := f.solid.node hS
    refine ⟨by rw [e1]; exact ok.kvs, ?_, by rw [e2, e3]; exact ok.bin⟩
    intro hdt a ha
    rw [e2] at hdt
    rcases e4 a ha with h | rfl
    · exact ok.arr hdt a h
    · exact ⟨_, rfl, f.mem, f.ge⟩
  have gset : ∀ i x (n : Node), ∀ a ∈ n.arr.set i (some x), a ∈ n.arr ∨ a = some x := fun i x n a ha => List.mem_or_eq_of_mem_set ha
  dsimp only
  split
  · split
    · rename_i q hq
      have hmem : some q ∈ (h1.mem p).arr := by
        rw [Option.bind_eq_some_iff] at hq
        obtain ⟨a, h1, h2⟩ := hq
        simp at h2; subst h2
        exact List.mem_of_getElem? h1
      obtain ⟨q', e, hS, hq5⟩ := s1.arr p hp hd _ hmem
      cases e
      split
      · rw [if_neg (by rw [shared_iff]; omega)]
        exact ⟨S, Found.of (s1.reset q t) ⟨hS, hq5⟩⟩
      · exact ⟨S, Found.of s1 ⟨hS, hq5⟩⟩
    · exact new (fun n => { n with arr := n.arr.set idx.toNat (some (Heap.getValue h1 c t).1) }) (fun n => ⟨rfl, rfl, rfl, gset _ _ n⟩)
  · exact new (fun n => { n with arr := n.arr ++ [some (Heap.getValue h1 c t).1] }) (fun n => ⟨rfl, rfl, rfl, fun a ha => by simpa using ha⟩)

theorem Solid.setKeyCached {S : Ptr → Prop} {h : Heap} (s : Solid S h) (I : Inv h) (E : Env) {p : Ptr} (hp : S p) (name : Bytes) (t : VT) (c : Option CId)
    (hc : ∀ d, c = some d → d < h.nextC) {q : Ptr} {h' : Heap} (e : Heap.setKeyCached E h p name t c = .ok (q, h')) :
    ∃ S', Found S h h' S' q := by
  unfold Heap.setKeyCached at e
  split at e
  · rename_i ha
    have h5 : 5 ≤ p := by
      rcases Nat.lt_or_ge p 5 with h5 | h5
      · have := I.const p h5
        rw [ha.1] at this
        have : p = 0 ∨ p = 1 ∨ p = 2 ∨ p = 3 ∨ p = 4 := by omega
        rcases this with rfl | rfl | rfl | rfl | rfl <;> contradiction
      · exact h5
    have e1 : Heap.setIndexCached h p (strIdx E name) t (h.mem p).owner = (q, h') := by simpa [setIndex] using e
    have := s.setIndexCached I hp h5 (strIdx E name) t (h.mem p).owner (fun d hd => I.owner p d hd)
    rw [e1] at this
    exact this
  · have s1 : Solid S (if (h.mem p).dt = .object then h else Heap.reset h p .object) := by
      split
      · exact s
      · exact s.reset p _
    have I1 := (I.ifReset_st (X := anyCache) ((h.mem p).dt = .object) p .object)
    have hc1 : ∀ d, c = some d → d < (if (h.mem p).dt = .object then h else Heap.reset h p .object).nextC := fun d e => Nat.lt_of_lt_of_le (hc d e) I1.nextC
    have I1 := I1.inv
    generalize (if (h.mem p).dt = .object then h else Heap.reset h p .object) = h1 at *
    have s2 : Solid S (objIndex E h1 p name).2 := by
      unfold objIndex
      refine s1.set (fun hS => ?_)
      have ok := s1.node hS
      exact ⟨by rw [indexByName_snd]; exact ok.kvs, ok.arr, ok.bin⟩
    have I2 := (I1.objIndex_st (X := anyCache) E p name)
    have hc2 : ∀ d, c = some d → d < (objIndex E h1 p name).2.nextC := fun d e => Nat.lt_of_lt_of_le (hc1 d e) I2.nextC
    have I2 := I2.inv
    dsimp only at e
    generalize (objIndex E h1 p name).1 = i at *
    generalize (objIndex E h1 p name).2 = h2 at *
    have new : ∀ g : Node → Node, (∀ n, (g n).arr = n.arr ∧ (g n).dt = n.dt ∧ (g n).bin = n.bin ∧
        ∀ a ∈ (g n).kvs.map Prod.snd, a ∈ n.kvs.map Prod.snd ∨ a = some (Heap.getValue h2 c t).1) →
        ∃ S', Found S h ((Heap.getValue h2 c t).2.upd p g) S' (Heap.getValue h2 c t).1 := by
      intro g hg
      have f := s2.getValue I2 c t hc2
      refine ⟨_, Found.put ⟨f.solid, f.le, f.mem, f.ge⟩ (fun hS => ?_)⟩
      obtain ⟨e1, e2, e3, e4⟩ := hg ((Heap.getValue h2 c t).2.mem p)
      have ok := f.solid.node hS
      refine ⟨?_, by rw [e1, e2]; exact ok.arr, by rw [e2, e3]; exact ok.bin⟩
      intro a ha
      rcases e4 a ha with h | rfl
      · exact ok.kvs a h
      · exact ⟨_, rfl, f.mem, f.ge⟩
    split at e
    · rename_i i
      split at e
      · cases e
      · rename_i q0 hq
        have hmem : some q0 ∈ (h2.mem p).kvs.map Prod.snd := by
          rw [Option.bind_eq_some_iff] at hq
          obtain ⟨a, h1, h2⟩ := hq
          exact List.mem_map.2 ⟨a, List.mem_of_getElem? h1, h2⟩
        obtain ⟨q', e', hS, hq5⟩ := s2.kvs p hp _ hmem
        cases e'
        rw [if_neg (by rw [shared_iff]; omega)] at e
        split at e
        · cases e; exact ⟨S, Found.of (s2.reset _ t) ⟨hS, hq5⟩⟩
        · cases e; exact ⟨S, Found.of s2 ⟨hS, hq5⟩⟩
    · cases e
      exact new (fun n => { n with kvs := n.kvs ++ [(name, some (Heap.getValue h2 c t).1)] }) (fun n => ⟨rfl, rfl, rfl, fun a ha => by simpa using ha⟩)

/-- After a call that began in a state in order: the memory is well-formed and in order. -/
def HoldS {α : Type} (S : Ptr → Prop) (h : Heap) : Out α → Prop
  | .ok _ h' => Step anyCache h h' ∧ ∃ S', Solid S' h' ∧ ∀ x, S x → S' x
  | .err _ h' => Step anyCache h h' ∧ ∃ S', Solid S' h' ∧ ∀ x, S x → S' x
  | _ => True

theorem HoldS.lift {α β : Type} {S : Ptr → Prop} {h : Heap} (I : Inv h) (s : Solid S h) (r : Res α) {f : α → Heap → Out β} (hf : ∀ a, HoldS S h (f a h)) :
    HoldS S h ((Out.lift r h).bind f) := by
  cases r with
  | ok a => exact hf a
  | err e => exact ⟨Step.refl I, S, s, fun _ => id⟩
  | panic => trivial
  | loop => trivial

theorem HoldS.trans {α : Type} {S S1 : Ptr → Prop} {h h1 : Heap} (st : Step anyCache h h1) (hs : ∀ x, S x → S1 x) {x : Out α} (k : HoldS S1 h1 x) : HoldS S h x := by
  match x, k with
  | .ok _ _, ⟨st', S', s', hs'⟩ => exact ⟨st.trans st', S', s', fun x hx => hs' x (hs x hx)⟩
  | .err _ _, ⟨st', S', s', hs'⟩ => exact ⟨st.trans st', S', s', fun x hx => hs' x (hs x hx)⟩
  | .panic, _ => trivial
  | .loop, _ => trivial

theorem HoldS.bind {α β : Type} {S : Ptr → Prop} {h : Heap} {x : Out α} (k : HoldS S h x) {f : α → Heap → Out β}
    (hf : ∀ a h1 S1, Step anyCache h h1 → Solid S1 h1 → (∀ x, S x → S1 x) → HoldS S1 h1 (f a h1)) : HoldS S h (x.bind f) := by
  match x, k with
  | .ok a h1, ⟨st, S1, s1, hs⟩ => exact (hf a h1 S1 st s1 hs).trans st hs
  | .err _ _, k => exact k
  | .panic, _ => trivial
  | .loop, _ => trivial

theorem HoldS.step {α : Type} {S : Ptr → Prop} {h h' : Heap} (st : Step anyCache h h') (s : Solid S h') (a : α) : HoldS S h (.ok a h') :=
  ⟨st, S, s, fun _ => id⟩

theorem HoldS.fail {α : Type} {S : Ptr → Prop} {h h' : Heap} (st : Step anyCache h h') (s : Solid S h') (e : Err) : HoldS S h (.err e h' : Out α) :=
  ⟨st, S, s, fun _ => id⟩

section
variable {S : Ptr → Prop} {h : Heap}

/-- A write to a node that is not a constant, keeping what is below it. -/
theorem Solid.write (s : Solid S h) (p : Ptr) (f : Node → Node) (h1 : (f (h.mem p)).kvs = (h.mem p).kvs) (h2 : (f (h.mem p)).dt ≠ .array ∨
    (f (h.mem p)).dt = (h.mem p).dt ∧ (f (h.mem p)).arr = (h.mem p).arr) (h3 : (f (h.mem p)).dt = .null → (h.mem p).dt = .null ∧ (f (h.mem p)).bin = (h.mem p).bin) :
    Solid S (h.upd p f) := by
  refine s.upd (fun hS => ?_)
  have ok := s.node hS
  refine ⟨by rw [h1]; exact ok.kvs, ?_, ?_⟩
  · intro hd
    rcases h2 with h2 | ⟨h2, h4⟩
    · exact absurd hd h2
    · rw [h4]; exact ok.arr (h2 ▸ hd)
  · intro hd
    obtain ⟨h5, h6⟩ := h3 hd
    rw [h6]; exact ok.bin h5

theorem Inv.write_st {h : Heap} (I : Inv h) {p : Ptr} (h5 : 5 ≤ p) (f : Node → Node) (ho : (f (h.mem p)).owner = (h.mem p).owner) :
    Step anyCache h (h.upd p f) := upd_step I p f (fun h => by omega) ho

theorem Solid.setDouble (s : Solid S h) (p : Ptr) (x : F64) : Solid S (Heap.setDouble h p x) := by
  unfold Heap.setDouble
  split
  · exact s
  · dsimp only
    split
    · exact (s.reset p _).write p _ rfl (Or.inr ⟨rfl, rfl⟩) (fun hd => ⟨hd, rfl⟩)
    · exact s.write p _ rfl (Or.inr ⟨rfl, rfl⟩) (fun hd => ⟨hd, rfl⟩)

theorem Solid.setTime (s : Solid S h) (p : Ptr) (x : F64) : Solid S (Heap.setTime h p x) := by
  unfold Heap.setTime
  dsimp only
  split
  · exact (s.reset p _).write p _ rfl (Or.inr ⟨rfl, rfl⟩) (fun hd => ⟨hd, rfl⟩)
  · exact s.write p _ rfl (Or.inr ⟨rfl, rfl⟩) (fun hd => ⟨hd, rfl⟩)

theorem Solid.setInt (s : Solid S h) (p : Ptr) (x : BitVec 64) : Solid S (Heap.setInt h p x) := by
  unfold Heap.setInt
  dsimp only
  split
  · exact s.write p _ rfl (Or.inr ⟨rfl, rfl⟩) (fun hd => ⟨hd, rfl⟩)
  · exact (s.reset p _).write p _ rfl (Or.inr ⟨rfl, rfl⟩) (fun hd => ⟨hd, rfl⟩)

theorem Solid.setString (s : Solid S h) (p : Ptr) (x : Bytes) : Solid S (Heap.setString h p x) := by
  unfold Heap.setString
  dsimp only
  split
  · exact s.write p _ rfl (Or.inr ⟨rfl, rfl⟩) (fun hd => ⟨hd, rfl⟩)
  · exact (s.reset p _).write p _ rfl (Or.inr ⟨rfl, rfl⟩) (fun hd => ⟨hd, rfl⟩)

/-- `SetBinary` on a binary. -/
theorem Solid.setBinary (s : Solid S h) {p : Ptr} (h5 : 5 ≤ p) (x : Bytes) : Solid S (Heap.setBinary h p x) := by
  unfold Heap.setBinary
  split
  · rename_i hd
    exact s.write p _ rfl (Or.inr ⟨rfl, rfl⟩) (fun h => by simp only [hd] at h; cases h)
  · rename_i hd
    split
    · exact s.write p _ rfl (Or.inr ⟨rfl, rfl⟩) (fun h => by simp only [hd] at h; cases h)
    · exact (s.reset p _).write p _ rfl (Or.inr ⟨rfl, rfl⟩) (fun h => by simp only [reset_dt h5] at h; cases h)
  · exact s

theorem bsonBinaryH_keeps (I : Inv h) (s : Solid S h) (hid b : Bytes) {q : Ptr} (h5 : 5 ≤ q) : HoldS S h (bsonBinaryH hid b q h) := by
  unfold bsonBinaryH
  dsimp only
  have st1 : Step anyCache h (h.upd q (fun n => { n with dt := .exBinary, ext := 5 })) := I.write_st h5 _ rfl
  have s1 : Solid S (h.upd q (fun n => { n with dt := .exBinary, ext := 5 })) :=
    s.write q _ rfl (Or.inl (by simp)) (fun h => by simp at h)
  refine HoldS.trans st1 (fun _ => id) ?_
  have I1 := st1.inv
  generalize h.upd q (fun n => { n with dt := .exBinary, ext := 5 }) = h1 at *
  have bin : ∀ {h2 : Heap} (d : Bytes) (n : Nat), Inv h2 → Solid S h2 → HoldS S h2 (.ok n (Heap.setBinary h2 q d)) := fun d n I s =>
    HoldS.step (I.setBinary_st (X := anyCache) q d) (s.setBinary h5 d) n
  refine HoldS.lift I1 s1 _ (fun n => HoldS.lift I1 s1 _ (fun b => HoldS.lift I1 s1 _ (fun sub => ?_)))
  split
  · refine HoldS.lift I1 s1 _ (fun b => HoldS.lift I1 s1 _ (fun n => HoldS.lift I1 s1 _ (fun b => ?_)))
    split
    · exact HoldS.fail (Step.refl I1) s1 _
    · have st2 : Step anyCache h1 (h1.upd q (fun n => { n with dt := .binary, ext := 0 })) := I1.write_st h5 _ rfl
      have s2 : Solid S (h1.upd q (fun n => { n with dt := .binary, ext := 0 })) :=
        s1.write q _ rfl (Or.inl (by simp)) (fun h => by simp at h)
      exact HoldS.trans st2 (fun _ => id) (HoldS.lift st2.inv s2 _ (fun d => bin d _ st2.inv s2))
  · exact HoldS.lift I1 s1 _ (fun d => bin d _ I1 s1)

theorem bsonSimpleH_keeps (E : Env) (I : Inv h) (s : Solid S h) (hid : Bytes) (ty : UInt8) (b : Bytes) {q : Ptr} (h5 : 5 ≤ q) :
    HoldS S h (bsonSimpleH E hid ty b q h) := by
  have binX : ∀ (x : UInt8) (d : Bytes) (n : Nat), HoldS S h (.ok n (Heap.setBinary (h.upd q (fun n => { n with dt := .binary, ext := x })) q d)) := by
    intro x d n
    have st2 : Step anyCache h (h.upd q (fun n => { n with dt := .binary, ext := x })) := I.write_st h5 _ rfl
    have s2 : Solid S (h.upd q (fun n => { n with dt := .binary, ext := x })) :=
      s.write q _ rfl (Or.inl (by simp)) (fun h => by simp at h)
    exact HoldS.step (st2.trans (st2.inv.setBinary_st (X := anyCache) q d)) (s2.setBinary h5 d) n
  unfold bsonSimpleH
  split
  · exact HoldS.lift I s _ (fun w => HoldS.step (I.setDouble_st q _) (s.setDouble q _) _)
  split
  · exact HoldS.lift I s _ (fun n => HoldS.lift I s _ (fun w => HoldS.step (I.setString_st q _) (s.setString q _) _))
  split
  · exact bsonBinaryH_keeps I s hid b h5
  split
  · exact HoldS.lift I s _ (fun d => binX 7 d _)
  split
  · refine HoldS.lift I s _ (fun x => HoldS.step (I.write_st h5 _ rfl) (s.write q _ rfl (Or.inl ?_) (fun h => ?_)) _)
    · dsimp only; split <;> simp
    · dsimp only at h; split at h <;> cases h
  split
  · exact HoldS.lift I s _ (fun w => HoldS.step (I.setTime_st q _) (s.setTime q _) _)
  split
  · exact HoldS.lift I s _ (fun w => HoldS.step (I.setInt_st q _) (s.setInt q _) _)
  split
  · exact HoldS.lift I s _ (fun w => HoldS.step (I.write_st h5 _ rfl) (s.write q _ rfl (Or.inl (by simp)) (fun h => by simp at h)) _)
  split
  · exact HoldS.lift I s _ (fun w => HoldS.step (I.setInt_st q _) (s.setInt q _) _)
  split
  · exact HoldS.lift I s _ (fun d => binX 19 d _)
  · exact HoldS.step (Step.refl I) s _

end

/-- All parsers of one level of fuel keep the memory well-formed. -/
structure BKeeps (E : Env) (hid : Bytes) (c : Option CId) (fuel : Nat) : Prop where
  doc : ∀ S h b p, Inv h → Solid S h → (∀ d, c = some d → d < h.nextC) → S p → HoldS S h (bsonDocH E hid c fuel b p h)
  docLoop : ∀ S h b l i p, Inv h → Solid S h → (∀ d, c = some d → d < h.nextC) → S p → HoldS S h (bsonDocLoopH E hid c fuel b l i p h)
  elem : ∀ S h ty b q, Inv h → Solid S h → (∀ d, c = some d → d < h.nextC) → S q → 5 ≤ q → HoldS S h (bsonElemH E hid c fuel ty b q h)
  arr : ∀ S h b p, Inv h → Solid S h → (∀ d, c = some d → d < h.nextC) → S p → 5 ≤ p → HoldS S h (bsonArrH E hid c fuel b p h)
  arrLoop : ∀ S h b l i p, Inv h → Solid S h → (∀ d, c = some d → d < h.nextC) → S p → 5 ≤ p → HoldS S h (bsonArrLoopH E hid c fuel b l i p h)

theorem bkeeps (E : Env) (hid : Bytes) (c : Option CId) : ∀ fuel, BKeeps E hid c fuel := by
  intro fuel
  induction fuel with
  | zero =>
    refine ⟨?_, ?_, ?_, ?_, ?_⟩ <;> intros <;> simp [bsonDocH, bsonDocLoopH, bsonElemH, bsonArrH, bsonArrLoopH, HoldS]
  | succ fuel ih =>
    refine ⟨?_, ?_, ?_, ?_, ?_⟩
    · intro S h b p I s hc hp
      rw [bsonDocH]
      split
      · exact HoldS.fail (Step.refl I) s _
      · refine HoldS.lift I s _ (fun l => ?_)
        split
        · exact HoldS.fail (Step.refl I) s _
        · exact HoldS.bind (ih.docLoop S h b l 4 p I s hc hp) (fun _ h1 S1 st s1 _ => HoldS.step (Step.refl st.inv) s1 _)
    · intro S h b l i p I s hc hp
      rw [bsonDocLoopH]
      split
      · refine HoldS.lift I s _ (fun ty => ?_)
        split
        · exact HoldS.fail (Step.refl I) s _
        · rename_i k _
          cases e : setKeyCached E h p ((b.drop (i + 1)).take k) (targetType ty) c with
          | ok r =>
            obtain ⟨q, h1⟩ := r
            obtain ⟨S1, f⟩ := s.setKeyCached I E hp _ _ c hc e
            have st := I.setKeyCached_st (X := anyCache) E p _ _ c hc (by simp) (by simp) e
            have hc1 : ∀ d, c = some d → d < h1.nextC := fun d e => Nat.lt_of_lt_of_le (hc d e) st.nextC
            refine HoldS.trans st f.le ?_
            refine HoldS.bind (ih.elem S1 h1 ty _ q st.inv f.solid hc1 f.mem f.ge) (fun n h2 S2 st2 s2 hs2 => ?_)
            split
            · exact HoldS.step (Step.refl st2.inv) s2 _
            · exact ih.docLoop S2 h2 b l _ p st2.inv s2 (fun d e => Nat.lt_of_lt_of_le (hc1 d e) st2.nextC) (hs2 p (f.le p hp))
          | err _ => trivial
          | panic => trivial
          | loop => trivial
      · exact HoldS.step (Step.refl I) s _
    · intro S h ty b q I s hc hq h5
      rw [bsonElemH]
      split
      · exact ih.arr S h b q I s hc hq h5
      · split
        · exact ih.doc S h b q I s hc hq
        · exact bsonSimpleH_keeps E I s hid ty b h5
    · intro S h b p I s hc hp h5
      rw [bsonArrH]
      refine HoldS.lift I s _ (fun l => ?_)
      split
      · exact HoldS.fail (Step.refl I) s _
      · exact HoldS.bind (ih.arrLoop S h b l 4 p I s hc hp h5) (fun _ h1 S1 st s1 _ => HoldS.step (Step.refl st.inv) s1 _)
    · intro S h b l i p I s hc hp h5
      rw [bsonArrLoopH]
      split
      · refine HoldS.lift I s _ (fun ty => ?_)
        split
        · exact HoldS.fail (Step.refl I) s _
        · rename_i k _
          dsimp only
          split
          · exact HoldS.fail (Step.refl I) s _
          · generalize ((E.strToInt ((b.drop (i + 1)).take k)).map BitVec.toInt).getD (-1) = idx
            obtain ⟨S1, f⟩ := s.setIndexCached I hp h5 idx (targetType ty) c hc
            have st := I.setIndexCached_st (X := anyCache) p idx (targetType ty) c hc (by simp)
            generalize setIndexCached h p idx (targetType ty) c = r at f st
            have hc1 : ∀ d, c = some d → d < r.2.nextC := fun d e => Nat.lt_of_lt_of_le (hc d e) st.nextC
            refine HoldS.trans st f.le ?_
            refine HoldS.bind (ih.elem S1 r.2 ty _ r.1 st.inv f.solid hc1 f.mem f.ge) (fun n h2 S2 st2 s2 hs2 => ?_)
            split
            · exact HoldS.step (Step.refl st2.inv) s2 _
            · exact ih.arrLoop S2 h2 b l _ p st2.inv s2 (fun d e => Nat.lt_of_lt_of_le (hc1 d e) st2.nextC) (hs2 p (f.le p hp)) h5
      · exact HoldS.step (Step.refl I) s _

end Dxs.Heap
