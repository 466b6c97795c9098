import Verif.Bson.Reading
import Verif.Props.BsonWire

/-! # C137: what each well-formed BSON document is read as; C13: what each value comes back as -/

namespace Dxs.Bson
open Spec
variable {E : Env} {hid : Bytes}

theorem reading_start (e : BElem) (o : Option Val) : reading E e (start (ty e) o) = reading E e (o.getD .null) := by
  cases e with
  | doc kvs =>
    simp only [ty, start, if_true]
    cases o with
    | none => rfl
    | some v => cases v <;> rfl
  | arr xs =>
    simp only [ty, start, if_true, if_neg (show ¬ ((4 : UInt8) = 3) by decide)]
    cases o with
    | none => rfl
    | some v => cases v <;> rfl
  | _ => rfl

theorem elems_count : ∀ (xs : List BElem) (i : Nat), xs.length ≤ (elems i xs).length
  | [], _ => by simp
  | e :: es, i => by
    have := elems_count es (i + 1)
    simp only [elems, List.length_cons, List.length_append]
    omega

theorem slot_nat (l : List Val) (i : Nat) : slot l (i : Int) = l[i]? := by simp [slot]
theorem store_nat (l : List Val) (i : Nat) (w : Val) : store l (i : Int) w = if i < l.length then l.set i w else l ++ [w] := by simp [store]

theorem store_reading (l : List Val) (i : Nat) (e : BElem) : store l (i : Int) (reading E e (l[i]?.getD .null)) = if i < l.length then l.set i (reading E e (l[i]?.getD .null)) else l ++ [reading E e .null] := by
  rw [store_nat]
  split
  · rfl
  · rename_i h
    rw [List.getElem?_eq_none (by omega)]; rfl

theorem drop_payload (p r : Bytes) : (p ++ r).drop p.length = r := List.drop_left

mutual
theorem reads (hE : IndexLaw E) : ∀ (e : BElem) (r : Bytes) (o : Option Val), WF e → Solid e → Elem E hid (ty e) (payload e ++ r) (start (ty e) o) (payload e).length (reading E e (o.getD .null))
  | .double w, r, o, _, _ => by
    have := Simple.double (E := E) (hid := hid) w.toNat (le 8 w.toNat ++ r) (r ++ hid) w.isLt (List.append_assoc _ _ _)
    rw [BitVec.ofNat_toNat, BitVec.setWidth_eq] at this
    simpa [ty, payload, reading] using Elem.simple _ _ (start 1 o) _ _ (by decide) (by decide) this
  | .str s, r, o, h, _ => by
    have := Simple.str (E := E) (hid := hid) s (le 4 (s.length + 1) ++ s ++ [0] ++ r) ([0] ++ r ++ hid) (by simp only [WF] at h; omega) (by simp)
    have := Elem.simple _ _ (start 2 o) _ _ (by decide) (by decide) this
    simpa [ty, payload, reading, Nat.add_assoc] using this
  | .doc kvs, r, o, h, hs => by
    obtain ⟨h1, h2⟩ := h
    obtain ⟨hs1, hs2⟩ := hs
    have key : ∀ ku m, Elem E hid 3 (frame (members kvs) ++ r) (.obj ku m) (frame (members kvs)).length (.obj true (readingM E kvs m)) := by
      intro ku m
      refine .doc _ _ _ _ _ ?_
      have hb := readsM hE kvs r ku m hs1 h2 hs2
      have := Doc.mk (E := E) (hid := hid) ((members kvs).length + 5) (members kvs ++ 0 :: r) ku m _ (by omega) (by simp) (by simp) (by rw [show (members kvs).length + 5 - 4 = (members kvs).length + 1 by omega]; exact hb)
      rw [frame_length]
      simpa [frame] using this
    rw [← reading_start]
    obtain ⟨ku, m, hm⟩ : ∃ ku m, start 3 o = .obj ku m := by
      unfold start
      rw [if_pos rfl]
      split
      · exact ⟨_, _, rfl⟩
      · exact ⟨_, _, rfl⟩
    simp only [ty, payload, hm, reading]
    exact key ku m
  | .arr xs, r, o, h, hs => by
    obtain ⟨h1, h2⟩ := h
    obtain ⟨hs1, hs2⟩ := hs
    have hc := elems_count xs 0
    have key : ∀ l, Elem E hid 4 (frame (elems 0 xs) ++ r) (.arr l) (frame (elems 0 xs)).length (.arr (readingL E 0 xs l)) := by
      intro l
      have hb := readsL hE xs r 0 l hs1 (by omega) h2 hs2
      have e1 : frame (elems 0 xs) ++ r = le 4 ((elems 0 xs).length + 5) ++ (elems 0 xs ++ 0 :: r) := by simp [frame]
      rw [frame_length]
      refine .arr _ _ _ (elems 0 xs ++ 0 :: r ++ hid) _ (by omega) (by rw [e1]; simp) (by rw [e1]; simp; omega) ?_
      rw [e1, List.drop_left' (le_length _ _), show (elems 0 xs).length + 5 - 4 = (elems 0 xs).length + 1 by omega]
      exact hb
    rw [← reading_start]
    obtain ⟨l, hm⟩ : ∃ l, start 4 o = .arr l := by
      unfold start
      rw [if_neg (by decide), if_pos rfl]
      split
      · exact ⟨_, rfl⟩
      · exact ⟨_, rfl⟩
    simp only [ty, payload, hm, reading]
    exact key l
  | .bin sub b, r, o, h, hs => by
    have := Simple.bin (E := E) (hid := hid) sub b (b ++ r) (r ++ hid) hs (by simp only [WF] at h; omega) (List.append_assoc _ _ _)
    have := Elem.simple _ _ (start 5 o) _ _ (by decide) (by decide) this
    simpa [ty, payload, reading] using this
  | .oid b, r, o, h, _ => by
    have := Simple.oid (E := E) (hid := hid) b (b ++ r) (r ++ hid) h (List.append_assoc _ _ _)
    have := Elem.simple _ _ (start 7 o) _ _ (by decide) (by decide) this
    rw [← (show b.length = 12 from h)] at this
    simpa [ty, payload, reading] using this
  | .bool b, r, o, _, _ => by
    have := Simple.bool (E := E) (hid := hid) (if b then 1 else 0) r
    have := Elem.simple _ _ (start 8 o) _ _ (by decide) (by decide) this
    cases b <;> simpa [ty, payload, reading] using this
  | .dateTime ms, r, o, _, _ => by
    have := Simple.date (E := E) (hid := hid) (BitVec.ofInt 64 ms).toNat (leI 8 ms ++ r) (r ++ hid) (BitVec.ofInt 64 ms).isLt (by rw [leI_toNat8, List.append_assoc])
    rw [BitVec.ofNat_toNat, BitVec.setWidth_eq] at this
    simpa [ty, payload, reading, leI] using Elem.simple _ _ (start 9 o) _ _ (by decide) (by decide) this
  | .null, r, o, _, _ => by
    have := Simple.none (E := E) (hid := hid) 10 r (by decide)
    simpa [ty, payload, reading] using Elem.simple _ _ (start 10 o) _ _ (by decide) (by decide) this
  | .int32 n, r, o, _, _ => by
    have hlt : (n % 2 ^ 32).toNat < 2 ^ 32 := by omega
    have := Simple.int32 (E := E) (hid := hid) (n % 2 ^ 32).toNat (leI 4 n ++ r) (r ++ hid) hlt (by rw [leI, List.append_assoc]; rfl)
    have hv : BitVec.ofNat 64 (n % 2 ^ 32).toNat = BitVec.ofInt 64 (n % 2 ^ 32) := by
      rw [← BitVec.ofInt_natCast]
      congr 1
      omega
    rw [hv] at this
    simpa [ty, payload, reading, leI] using Elem.simple _ _ (start 16 o) _ _ (by decide) (by decide) this
  | .timestamp w, r, o, _, _ => by
    have := Simple.stamp (E := E) (hid := hid) w.toNat (le 8 w.toNat ++ r) (r ++ hid) w.isLt (List.append_assoc _ _ _)
    rw [BitVec.ofNat_toNat, BitVec.setWidth_eq] at this
    simpa [ty, payload, reading] using Elem.simple _ _ (start 17 o) _ _ (by decide) (by decide) this
  | .int64 n, r, o, _, _ => by
    have := Simple.int64 (E := E) (hid := hid) (BitVec.ofInt 64 n).toNat (leI 8 n ++ r) (r ++ hid) (BitVec.ofInt 64 n).isLt (by rw [leI_toNat8, List.append_assoc])
    rw [BitVec.ofNat_toNat, BitVec.setWidth_eq] at this
    simpa [ty, payload, reading, leI] using Elem.simple _ _ (start 18 o) _ _ (by decide) (by decide) this
  | .dec128 b, r, o, h, _ => by
    have := Simple.dec (E := E) (hid := hid) b (b ++ r) (r ++ hid) h (List.append_assoc _ _ _)
    have := Elem.simple _ _ (start 19 o) _ _ (by decide) (by decide) this
    rw [← (show b.length = 16 from h)] at this
    simpa [ty, payload, reading] using this
theorem readsM (hE : IndexLaw E) : ∀ (kvs : List (Bytes × BElem)) (r : Bytes) (ku : Bool) (m : List (Bytes × Val)), kvs ≠ [] → WFM kvs → SolidM kvs →
    Body E hid ((members kvs).length + 1) (members kvs ++ 0 :: r) ku m (.obj true (readingM E kvs m))
  | [], _, _, _, h, _, _ => absurd rfl h
  | (k, e) :: kvs, r, ku, m, _, ⟨hk, h1, h2⟩, ⟨s1, s2⟩ => by
    have he := reads hE e (members kvs ++ 0 :: r) (member E m k) h1 s1
    rw [members, readingM]
    by_cases hn : kvs = []
    · subst hn
      have := Body.last (E := E) (hid := hid) (ty e) k (payload e ++ (members [] ++ 0 :: r)) ku m _ _ hk he (by rw [drop_payload]; rfl)
      rw [show (ty e :: k ++ 0 :: payload e ++ members []).length + 1 = k.length + 2 + (payload e).length + 1 by simp [members]; omega]
      simpa [members, readingM] using this
    · have hb := readsM hE kvs r true (Assoc.put E.keyMatch m k (reading E e ((member E m k).getD .null))) hn h2 s2
      have hpos : 0 < (members kvs).length := members_ne kvs hn
      have hlen : (ty e :: k ++ 0 :: payload e ++ members kvs).length = k.length + 2 + (payload e).length + (members kvs).length := by simp; omega
      have := Body.more (E := E) (hid := hid) ((ty e :: k ++ 0 :: payload e ++ members kvs).length + 1) (ty e) k (payload e ++ (members kvs ++ 0 :: r)) ku m _ _ _ (by omega) hk he (by omega)
        (by rw [drop_payload, hlen, show k.length + 2 + (payload e).length + (members kvs).length + 1 - (k.length + 2 + (payload e).length) = (members kvs).length + 1 by omega]; exact hb)
      simpa using this
theorem readsL (hE : IndexLaw E) : ∀ (xs : List BElem) (r : Bytes) (i : Nat) (l : List Val), xs ≠ [] → i + xs.length < 2 ^ 31 → WFL xs → SolidL xs →
    Items E hid ((elems i xs).length + 1) (elems i xs ++ 0 :: r) l (.arr (readingL E i xs l))
  | [], _, _, _, h, _, _, _ => absurd rfl h
  | e :: es, r, i, l, _, hi, ⟨h1, h2⟩, ⟨s1, s2⟩ => by
    have hi' : (BitVec.ofNat 64 i).toInt = i := ofNat_toInt i (by omega)
    have hlaw := hE i (by omega)
    have hk := decNat_not_zero i
    have he := reads hE e (elems (i + 1) es ++ 0 :: r) (slot l (BitVec.ofNat 64 i).toInt) h1 s1
    simp only [List.length_cons] at hi
    rw [elems, readingL, ← store_reading]
    by_cases hn : es = []
    · subst hn
      have := Items.last (E := E) (hid := hid) (ty e) (decNat i) (payload e ++ (elems (i + 1) [] ++ 0 :: r)) _ l _ _ hk hlaw (by omega) he (by rw [drop_payload]; rfl)
      rw [hi', slot_nat] at this
      rw [show (ty e :: decNat i ++ 0 :: payload e ++ elems (i + 1) []).length + 1 = (decNat i).length + 2 + (payload e).length + 1 by simp [elems]; omega]
      simpa [elems, readingL] using this
    · have hb := readsL hE es r (i + 1) (store l (i : Int) (reading E e (l[i]?.getD .null))) hn (by omega) h2 s2
      have hpos : 0 < (elems (i + 1) es).length := elems_ne _ es hn
      have hlen : (ty e :: decNat i ++ 0 :: payload e ++ elems (i + 1) es).length = (decNat i).length + 2 + (payload e).length + (elems (i + 1) es).length := by simp; omega
      have := Items.more (E := E) (hid := hid) ((ty e :: decNat i ++ 0 :: payload e ++ elems (i + 1) es).length + 1) (ty e) (decNat i) (payload e ++ (elems (i + 1) es ++ 0 :: r)) _ l _ _ _ (by omega) hk hlaw (by omega) he (by omega)
        (by
          rw [drop_payload, hlen, show (decNat i).length + 2 + (payload e).length + (elems (i + 1) es).length + 1 - ((decNat i).length + 2 + (payload e).length) = (elems (i + 1) es).length + 1 by omega, hi', slot_nat]
          exact hb)
      simpa using this
end

/-- **C137**: a well-formed document without empty documents or arrays and without binaries of subtype 2 is accepted, and read as `reading` says. -/
theorem C137_reading (E : Env) (hE : IndexLaw E) (hid rest : Bytes) (kvs : List (Bytes × BElem)) (hw : WF (.doc kvs)) (hs : Solid (.doc kvs)) :
    newValueFromBson E hid (document kvs ++ rest) = .ok (reading E (.doc kvs) .null) := by
  obtain ⟨h1, h2⟩ := hw
  obtain ⟨hs1, hs2⟩ := hs
  rw [C136_exact]
  have hb := readsM (hid := hid) hE kvs rest false [] hs1 h2 hs2
  have := Doc.mk (E := E) (hid := hid) ((members kvs).length + 5) (members kvs ++ 0 :: rest) false [] _ (by omega) (by simp) (by simp) (by rw [show (members kvs).length + 5 - 4 = (members kvs).length + 1 by omega]; exact hb)
  exact ⟨_, by simpa [document, frame, reading] using this⟩

/-- **C13**, exactly: what an object comes back as after Value2Bson and NewValueFromBson, right or wrong, if no empty object or array and no binary of subtype 2 is in it. -/
theorem C13_exact (E : Env) (hE : IndexLaw E) (hid rest : Bytes) (ku : Bool) (kvs : List (Bytes × Val)) (h : WritableM kvs) (hw : WF (data E (.obj ku kvs))) (hs : Solid (data E (.obj ku kvs))) :
    ∃ bs, value2Bson E (.obj ku kvs) [] = .ok bs ∧ newValueFromBson E hid (bs ++ rest) = .ok (reading E (data E (.obj ku kvs)) .null) := by
  refine ⟨_, C12_document E ku kvs [] h, ?_⟩
  rw [data] at hw hs ⊢
  exact C137_reading E hE hid rest _ hw hs

mutual
theorem readable_solid : ∀ e : BElem, Readable E e → Solid e
  | .doc kvs, h => ⟨h.1, readable_solidM kvs h.2.2⟩
  | .arr xs, h => ⟨h.1, readable_solidL xs h.2⟩
  | .bin _ _, h => h.elim
  | .double _, _ | .str _, _ | .oid _, _ | .bool _, _ | .dateTime _, _ | .null, _ | .int32 _, _ | .timestamp _, _ | .int64 _, _ | .dec128 _, _ => trivial
theorem readable_solidM : ∀ kvs : List (Bytes × BElem), ReadableM E kvs → SolidM kvs
  | [], _ => trivial
  | (_, e) :: kvs, h => ⟨readable_solid e h.1, readable_solidM kvs h.2⟩
theorem readable_solidL : ∀ xs : List BElem, ReadableL E xs → SolidL xs
  | [], _ => trivial
  | e :: xs, h => ⟨readable_solid e h.1, readable_solidL xs h.2⟩
end

/-- Where C55 holds, `reading` gives what the specification says. -/
theorem C137_right (E : Env) (hE : IndexLaw E) (kvs : List (Bytes × BElem)) (hw : WF (.doc kvs)) (hr : Readable E (.doc kvs)) : Denotes E (.doc kvs) (reading E (.doc kvs) .null) := by
  obtain ⟨vs, hv, e⟩ := newValue_doc E hE [] kvs [] hw hr
  rw [C137_reading E hE [] [] kvs hw (readable_solid _ hr)] at e
  rw [Res.ok.inj e]
  exact ⟨vs, rfl, hv⟩

/-- What a value is after `n` times Value2Bson and NewValueFromBson. -/
inductive Trips (E : Env) (hid : Bytes) : Nat → Val → Val → Prop
  | zero (v : Val) : Trips E hid 0 v v
  | succ (n : Nat) (v w x : Val) (bs : Bytes) : value2Bson E v [] = .ok bs → newValueFromBson E hid bs = .ok w → Trips E hid n w x → Trips E hid (n + 1) v x

/-- **C16** is false, and the damage adds up: a binary grows by one zero byte each time it is written and read. -/
theorem C16_grows (E : Env) (hid k : Bytes) (hk : (0 : UInt8) ∉ k) : ∀ (n : Nat) (b : Bytes), k.length + b.length + n ≤ 2 ^ 30 → Trips E hid n (.obj true [(k, .bin 0 b)]) (.obj true [(k, .bin 0 (List.replicate n 0 ++ b))])
  | 0, b, _ => .zero _
  | n + 1, b, h => by
    obtain ⟨bs, h1, h2⟩ := C16_binary_wrong E hid [] k b hk (by omega)
    rw [List.append_nil] at h2
    have ih := C16_grows E hid k hk n (0 :: b) (by simp only [List.length_cons]; omega)
    rw [show List.replicate (n + 1) (0 : UInt8) ++ b = List.replicate n 0 ++ 0 :: b by rw [List.replicate_succ']; simp]
    exact .succ n _ _ _ bs h1 h2 ih

/-! ## Which values come back as they were -/

theorem readingM_distinct : ∀ (d : List (Bytes × BElem)) (m : List (Bytes × Val)), Assoc.Distinct E.keyMatch m → Assoc.Distinct E.keyMatch (readingM E d m)
  | [], _, h => h
  | (k, e) :: d, m, h => by rw [readingM]; exact readingM_distinct d _ (Assoc.put_distinct h k _)

theorem readingM_new : ∀ (d : List (Bytes × BElem)) (m : List (Bytes × Val)), Assoc.Distinct E.keyMatch d → (∀ a ∈ m, ∀ x ∈ d, E.keyMatch a.1 x.1 = false) →
    readingM E d m = m ++ d.map (fun x => (x.1, reading E x.2 .null))
  | [], _, _, _ => by simp [readingM]
  | (k, e) :: d, m, h, hm => by
    simp only [Assoc.Distinct, List.map_cons, List.pairwise_cons] at h
    have hk : ∀ a ∈ m, E.keyMatch a.1 k = false := fun a ha => hm a ha (k, e) (by simp)
    have hn : member E m k = none := by
      unfold member
      rw [List.find?_eq_none.2 (fun a ha => by simp [hk a ha])]; rfl
    rw [readingM, hn, Assoc.put_new hk, readingM_new d _ h.2]
    · simp
    · intro a ha x hx
      rcases List.mem_append.1 ha with ha | ha
      · exact hm a ha x (by simp [hx])
      · simp at ha; subst ha; exact h.1 x.1 (List.mem_map_of_mem hx)

theorem readingL_new : ∀ (d : List BElem) (l : List Val), readingL E l.length d l = l ++ d.map (fun e => reading E e .null)
  | [], _ => by simp [readingL]
  | e :: d, l => by
    have := readingL_new d (l ++ [reading E e .null])
    rw [List.length_append, List.length_singleton] at this
    rw [readingL, if_neg (by omega), this]
    simp

theorem dataM_names : ∀ kvs : List (Bytes × Val), (dataM E true kvs).map Prod.fst = kvs.map Prod.fst
  | [] => rfl
  | (k, v) :: kvs => by simp [dataM, dataM_names kvs]

theorem dataM_distinct (kvs : List (Bytes × Val)) : Assoc.Distinct E.keyMatch (dataM E true kvs) ↔ Assoc.Distinct E.keyMatch kvs := by
  unfold Assoc.Distinct
  rw [dataM_names]

theorem int_fixed (e : UInt8) (c : BitVec 64) : reading E (data E (.int e c)) .null = .int e c ↔ e = 17 ∨ (e = 0 ∧ ¬ (-2 ^ 31 ≤ c.toInt ∧ c.toInt < 0)) := by
  rw [data]
  by_cases he : e = 17
  · subst he; simp [reading]
  · rw [if_neg he]
    split
    · rename_i hr
      simp only [reading, Val.int.injEq, he, false_or]
      constructor
      · rintro ⟨rfl, h⟩
        refine ⟨rfl, fun hn => ?_⟩
        have := congrArg BitVec.toInt h
        rw [BitVec.toInt_ofInt, Int.bmod_eq_of_le (by omega) (by omega)] at this
        omega
      · rintro ⟨rfl, hn⟩
        refine ⟨rfl, ?_⟩
        rw [show c.toInt % 2 ^ 32 = c.toInt by omega, BitVec.ofInt_toInt]
    · rename_i hr
      simp only [reading, Val.int.injEq, he, false_or, BitVec.ofInt_toInt, and_true]
      constructor
      · rintro rfl; exact ⟨rfl, by omega⟩
      · rintro ⟨rfl, -⟩; rfl

theorem take_fixed {b : Bytes} {n : Nat} : b.take n = b ↔ b.length ≤ n := by
  constructor
  · intro h
    rw [← h, List.length_take]
    omega
  · exact List.take_of_length_le

mutual
theorem fixed_iff (E : Env) : ∀ v : Val, reading E (data E v) .null = v ↔ Fixed E v
  | .nil => by simp [data, reading, Fixed]
  | .null => by simp [data, reading, Fixed]
  | .tru => by simp [data, reading, Fixed]
  | .fls => by simp [data, reading, Fixed]
  | .nan => by simp [data, reading, Fixed]
  | .inf => by simp [data, reading, Fixed]
  | .float c => by simp [data, reading, Fixed]
  | .double c => by simp [data, reading, Fixed]
  | .str s => by simp [data, reading, Fixed]
  | .raw s => by simp [data, reading, Fixed]
  | .dateTime c => by simp [data, reading, Fixed, BitVec.ofInt_toInt]
  | .int e c => by rw [int_fixed, Fixed]
  | .exbin e b => by
    rw [data]
    split <;> simp [reading, Fixed]
  | .bin e b => by
    rw [data]
    split
    · rename_i h; subst h; simp [reading, Fixed, take_fixed]
    · split
      · rename_i h; subst h; simp [reading, Fixed, take_fixed]
      · rename_i h1 h2
        simp only [reading, Fixed, Val.bin.injEq]
        constructor
        · rintro ⟨-, h⟩
          have := congrArg List.length h
          simp at this
        · rintro (⟨h, -⟩ | ⟨h, -⟩)
          · exact absurd h h1
          · exact absurd h h2
  | .arr xs => by
    have := readingL_new (E := E) (dataL E xs) []
    simp only [List.length_nil, List.nil_append] at this
    rw [data, Fixed, ← fixedL_iff E xs, ← this]
    simp [reading]
  | .obj ku kvs => by
    rw [data, Fixed]
    simp only [reading, Val.obj.injEq]
    have hread : Assoc.Distinct E.keyMatch kvs → readingM E (dataM E true kvs) [] = (dataM E true kvs).map (fun x => (x.1, reading E x.2 .null)) := by
      intro hd
      have := readingM_new (E := E) (dataM E true kvs) [] ((dataM_distinct kvs).2 hd) (by simp)
      simpa using this
    constructor
    · rintro ⟨rfl, h⟩
      have hd : Assoc.Distinct E.keyMatch kvs := by rw [← h]; exact readingM_distinct _ _ (by simp [Assoc.Distinct])
      refine ⟨rfl, hd, (fixedM_iff E kvs).1 ?_⟩
      rw [← hread hd]
      exact h
    · rintro ⟨rfl, hd, h⟩
      refine ⟨rfl, ?_⟩
      rw [hread hd]
      exact (fixedM_iff E kvs).2 h
theorem fixedL_iff (E : Env) : ∀ vs : List Val, (dataL E vs).map (fun e => reading E e .null) = vs ↔ FixedL E vs
  | [] => by simp [dataL, FixedL]
  | v :: vs => by
    rw [FixedL, ← fixed_iff E v, ← fixedL_iff E vs]
    simp [dataL]
theorem fixedM_iff (E : Env) : ∀ kvs : List (Bytes × Val), (dataM E true kvs).map (fun x => (x.1, reading E x.2 .null)) = kvs ↔ FixedM E kvs
  | [] => by simp [dataM, FixedM]
  | (k, v) :: kvs => by
    rw [FixedM, ← fixed_iff E v, ← fixedM_iff E kvs]
    simp [dataM]
end

/-- **C13**: of the objects without empty objects or arrays that BSON can carry, exactly those of `Fixed` come back as they were. -/
theorem C13_iff (E : Env) (hE : IndexLaw E) (hid rest : Bytes) (ku : Bool) (kvs : List (Bytes × Val)) (h : WritableM kvs) (hw : WF (data E (.obj ku kvs))) (hs : Solid (data E (.obj ku kvs))) :
    (∃ bs, value2Bson E (.obj ku kvs) [] = .ok bs ∧ newValueFromBson E hid (bs ++ rest) = .ok (.obj ku kvs)) ↔ Fixed E (.obj ku kvs) := by
  obtain ⟨bs, h1, h2⟩ := C13_exact E hE hid rest ku kvs h hw hs
  rw [← fixed_iff]
  constructor
  · rintro ⟨bs', h3, h4⟩
    rw [h1] at h3
    cases h3
    rw [h2] at h4
    exact Res.ok.inj h4
  · intro he
    refine ⟨bs, h1, ?_⟩
    rw [h2, he]

example : Fixed envEx (.obj true [([97], .arr [.int 0 5, .str [98]]), ([98], .int 0 (-4294967296))]) := by
  refine ⟨rfl, by simp [Assoc.Distinct]; decide, ⟨.inr ⟨rfl, by decide⟩, trivial, trivial⟩, .inr ⟨rfl, by decide⟩, trivial⟩
example : ¬ Fixed envEx (.obj true [([97], .int 0 (-1))]) := by simp [Fixed, FixedM]

/-! A document with a negative integer, a binary, and a name twice with an array: the second array is read over the first. -/
def sample : List (Bytes × BElem) := [([97], .int32 (-1)), ([98], .bin 0 [7]), ([99], .arr [.bool true, .bool false]), ([99], .arr [.int32 5])]
example : newValueFromBson envEx [] (document sample) = .ok (.obj true [([97], .int 0 4294967295), ([98], .bin 0 [0, 7]), ([99], .arr [.int 0 5, .fls])]) := by decide +kernel
example : reading envEx (.doc sample) .null = .obj true [([97], .int 0 4294967295), ([98], .bin 0 [0, 7]), ([99], .arr [.int 0 5, .fls])] := by decide +kernel
example : WF (.doc sample) ∧ Solid (.doc sample) := by
  refine ⟨⟨by decide +kernel, ?_⟩, ?_⟩
  · simp only [sample, WFM, WF, WFL]; decide +kernel
  · simp [sample, Solid, SolidM, SolidL]
example : Trips envEx [] 2 (.obj true [([97], .bin 0 [5])]) (.obj true [([97], .bin 0 [0, 0, 5])]) := C16_grows envEx [] [97] (by decide) 2 [5] (by decide)

end Dxs.Bson
