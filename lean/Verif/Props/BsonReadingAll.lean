import Verif.Bson.ReadingAll
import Verif.Props.BsonReading

/-! # C137 for all documents, C15 exactly -/

namespace Dxs.Bson
open Spec
variable {E : Env} {hid : Bytes}

theorem cstring_some {r k : Bytes} (h : cstring r = some k) : ∃ u, r = k ++ 0 :: u ∧ (0 : UInt8) ∉ k := by
  unfold cstring at h
  split at h
  · rename_i hm
    cases h
    induction r with
    | nil => simp at hm
    | cons x r ih =>
      by_cases hx : x = 0
      · subst hx; exact ⟨r, by simp, by simp⟩
      · obtain ⟨u, e, hn⟩ := ih (by simpa [Ne.symm hx] using hm)
        refine ⟨u, ?_, ?_⟩
        · rw [List.takeWhile_cons_of_pos (by simpa using hx), List.cons_append, ← e]
        · rw [List.takeWhile_cons_of_pos (by simpa using hx)]
          simp only [List.mem_cons, not_or]
          exact ⟨Ne.symm hx, hn⟩
  · cases h

theorem cstring_none {r : Bytes} (h : cstring r = none) : r.idxOf? 0 = none := by
  unfold cstring at h
  split at h
  · cases h
  · rename_i hm
    unfold List.idxOf?
    rw [List.findIdx?_eq_none_iff]
    intro x hx
    simp only [beq_eq_false_iff_ne]
    rintro rfl
    exact hm hx

theorem store_given' {l : List Val} {i : Nat} {w : Val} (h : GivenL E l) (hw : Given E w) : GivenL E (if i < l.length then l.set i w else l ++ [w]) := by
  rw [← store_nat]; exact store_given h hw

theorem res_assoc {α β γ : Type} (x : Res α) (p : α → Res β) (q : β → Res γ) : (x >>= p) >>= q = x >>= fun a => p a >>= q := by
  cases x <;> rfl

theorem elem_zero (f : Nat) (u : Bytes) (cur : Val) : parseElem E hid (f + 1) 0 u cur = .ok (0, .null) := by
  simp [parseElem, parseSimple]

/-- The empty document. -/
theorem empty_doc (r : Bytes) (ku : Bool) (m : List (Bytes × Val)) (f : Nat) (g : Given E (.obj ku m)) :
    parseDoc E hid (f + 3) (frame [] ++ r) ku m = (match cstring r with | none => .err .invalidBson | some k => .ok (5, .obj true (Assoc.put E.keyMatch m k .null))) := by
  have hd5 : (frame [] ++ r).drop 5 = r := by simp [frame, le]
  have hd4 : (frame [] ++ r).drop 4 = 0 :: r := by simp [frame, le]
  have hl : (frame [] ++ r).length = 5 + r.length := by simp [frame, le]; omega
  have hu : uint32 hid (frame [] ++ r) = .ok 5 := uint32_iff.2 ⟨by decide, [0] ++ r ++ hid, by simp [frame]⟩
  rw [parseDoc, if_neg (by omega), hu, Res.bind_ok, if_neg (by omega)]
  cases hc : cstring r with
  | none =>
    rw [docLoop, if_pos (by decide), at_drop _ 4 _ _ hd4, Res.bind_ok]
    dsimp only
    rw [hd5, cstring_none hc]
    rfl
  | some k =>
    obtain ⟨u, rfl, hk⟩ := cstring_some hc
    rw [docLoop_step (f := f + 1) (ty := 0) (k := k) (u := u) g.1 (by decide) hd4 hk]
    rw [elem_zero, Res.bind_ok]
    dsimp only
    rw [if_neg (by omega), docLoop, if_neg (by omega)]
    rfl

/-- The empty array. -/
theorem empty_arr (r : Bytes) (l : List Val) (f : Nat) :
    parseArr E hid (f + 3) (frame [] ++ r) l = (match cstring r with
      | none => .err .invalidBson
      | some k => match E.strToInt k with
        | none => .err .bsonArrayIndex
        | some i => if i.toInt = -1 then .err .bsonArrayIndex else .ok (5, .arr (store l i.toInt .null))) := by
  have hd5 : (frame [] ++ r).drop 5 = r := by simp [frame, le]
  have hd4 : (frame [] ++ r).drop 4 = 0 :: r := by simp [frame, le]
  have hl : (frame [] ++ r).length = 5 + r.length := by simp [frame, le]; omega
  have hu : uint32 hid (frame [] ++ r) = .ok 5 := uint32_iff.2 ⟨by decide, [0] ++ r ++ hid, by simp [frame]⟩
  rw [parseArr, hu, Res.bind_ok, if_neg (by omega)]
  cases hc : cstring r with
  | none =>
    rw [arrLoop, if_pos (by decide), at_drop _ 4 _ _ hd4, Res.bind_ok]
    dsimp only
    rw [hd5, cstring_none hc]
    rfl
  | some k =>
    obtain ⟨u, rfl, hk⟩ := cstring_some hc
    dsimp only
    have bad : ((E.strToInt k).map BitVec.toInt).getD (-1) = -1 → arrLoop E hid (f + 2) (frame [] ++ (k ++ 0 :: u)) 5 4 l = .err .bsonArrayIndex := by
      intro h
      rw [arrLoop, if_pos (by decide), at_drop _ 4 _ _ hd4, Res.bind_ok]
      dsimp only
      rw [hd5, idxOf_key k u hk]
      dsimp only
      rw [List.take_left, if_pos h]
    cases hi : E.strToInt k with
    | none => rw [bad (by rw [hi]; rfl)]; rfl
    | some i =>
      dsimp only
      by_cases h1 : i.toInt = -1
      · rw [if_pos h1, bad (by rw [hi]; exact h1)]; rfl
      · rw [if_neg h1, arrLoop_step (f := f + 1) (ty := 0) (k := k) (u := u) (by decide) hd4 hk hi h1, elem_zero, Res.bind_ok]
        dsimp only
        rw [if_neg (by omega), arrLoop, if_neg (by omega)]
        rfl

theorem start_obj (o : Option Val) (h : ∀ v, o = some v → Given E v) : ∃ ku, start 3 o = .obj ku (match o.getD .null with | .obj _ m => m | _ => []) ∧ Given E (.obj ku (match o.getD .null with | .obj _ m => m | _ => [])) := by
  have hs : ∃ ku, start 3 o = .obj ku (match o.getD .null with | .obj _ m => m | _ => []) := by
    cases o with
    | none => exact ⟨false, rfl⟩
    | some v => cases v <;> exact ⟨_, rfl⟩
  obtain ⟨ku, hs⟩ := hs
  refine ⟨ku, hs, ?_⟩
  rw [← hs]
  exact start_given h

theorem start_list (o : Option Val) (h : ∀ v, o = some v → Given E v) : start 4 o = .arr (match o.getD .null with | .arr l => l | _ => []) ∧ GivenL E (match o.getD .null with | .arr l => l | _ => []) := by
  have hs : start 4 o = .arr (match o.getD .null with | .arr l => l | _ => []) := by
    cases o with
    | none => rfl
    | some v => cases v <;> rfl
  refine ⟨hs, ?_⟩
  have := start_given (E := E) (ty := 4) h
  rw [hs] at this
  exact this

theorem leaf_all (hE : IndexLaw E) (e : BElem) (hc : isContainer e = false) (r : Bytes) (o : Option Val) (f : Nat) (hw : WF e) (hn : NoOld e) (ho : ∀ v, o = some v → Given E v) (hf : 2 * (payload e ++ r).length + 3 ≤ f) :
    parseElem E hid f (ty e) (payload e ++ r) (start (ty e) o) = readAll E e (o.getD .null) r >>= fun v => .ok ((payload e).length, v) := by
  have hs : Solid e := by cases e <;> first | trivial | exact hn | cases hc
  rw [elem_parse (reads hE e r o hw hs) (start_given ho) f hf]
  cases e <;> first | rfl | cases hc

mutual
theorem all_elem (hE : IndexLaw E) : ∀ (e : BElem) (r : Bytes) (o : Option Val) (f : Nat), WF e → NoOld e → (∀ v, o = some v → Given E v) → 2 * (payload e ++ r).length + 3 ≤ f →
    parseElem E hid f (ty e) (payload e ++ r) (start (ty e) o) = readAll E e (o.getD .null) r >>= fun v => .ok ((payload e).length, v)
  | .doc [], r, o, f, _, _, ho, hf => by
    obtain ⟨ku, hs, g⟩ := start_obj o ho
    obtain ⟨f, rfl⟩ : ∃ g, f = g + 4 := ⟨f - 4, by simp [payload, members, frame, le] at hf; omega⟩
    simp only [ty, payload, members, hs, parseElem, readAll, show ((3 : UInt8) == 4) = false from rfl, show ((3 : UInt8) == 3) = true from rfl, Bool.false_eq_true, if_false, if_true]
    rw [empty_doc r ku _ f g]
    cases cstring r <;> rfl
  | .doc (kv :: kvs), r, o, f, ⟨h1, h2⟩, hn, ho, hf => by
    obtain ⟨ku, hs, g⟩ := start_obj o ho
    obtain ⟨f, rfl⟩ : ∃ g, f = g + 2 := ⟨f - 2, by omega⟩
    have hfl : (frame (members (kv :: kvs)) ++ r).length = (members (kv :: kvs)).length + 5 + r.length := by simp [frame_length]
    have e1 : frame (members (kv :: kvs)) ++ r = le 4 ((members (kv :: kvs)).length + 5) ++ (members (kv :: kvs) ++ 0 :: r) := by simp [frame]
    simp only [payload, hfl] at hf
    simp only [ty, payload, hs, parseElem, readAll, show ((3 : UInt8) == 4) = false from rfl, show ((3 : UInt8) == 3) = true from rfl, Bool.false_eq_true, if_false, if_true]
    have hu : uint32 hid (frame (members (kv :: kvs)) ++ r) = .ok ((members (kv :: kvs)).length + 5) := uint32_iff.2 ⟨by omega, _, by rw [e1, List.append_assoc]⟩
    rw [parseDoc, if_neg (by omega), hu, Res.bind_ok, if_neg (by omega),
      all_members hE (kv :: kvs) (0 :: r) r _ _ _ ku _ f (by simp) rfl h2 hn g (by rw [e1, List.drop_left' (le_length _ _)]) (by omega) (by omega), res_assoc, res_assoc]
    rw [frame_length]
    rfl
  | .arr [], r, o, f, _, _, ho, hf => by
    obtain ⟨hs, g⟩ := start_list o ho
    obtain ⟨f, rfl⟩ : ∃ g, f = g + 4 := ⟨f - 4, by simp [payload, elems, frame, le] at hf; omega⟩
    simp only [ty, payload, elems, hs, parseElem, readAll, show ((4 : UInt8) == 4) = true from rfl, if_true]
    rw [empty_arr r _ f]
    cases cstring r with
    | none => rfl
    | some k =>
      dsimp only
      cases E.strToInt k with
      | none => rfl
      | some i =>
        dsimp only
        split <;> rfl
  | .arr (x :: xs), r, o, f, ⟨h1, h2⟩, hn, ho, hf => by
    obtain ⟨hs, g⟩ := start_list o ho
    obtain ⟨f, rfl⟩ : ∃ g, f = g + 2 := ⟨f - 2, by omega⟩
    have hc := elems_count (x :: xs) 0
    have hfl : (frame (elems 0 (x :: xs)) ++ r).length = (elems 0 (x :: xs)).length + 5 + r.length := by simp [frame_length]
    have e1 : frame (elems 0 (x :: xs)) ++ r = le 4 ((elems 0 (x :: xs)).length + 5) ++ (elems 0 (x :: xs) ++ 0 :: r) := by simp [frame]
    simp only [payload, hfl] at hf
    simp only [ty, payload, hs, parseElem, readAll, show ((4 : UInt8) == 4) = true from rfl, if_true]
    have hu : uint32 hid (frame (elems 0 (x :: xs)) ++ r) = .ok ((elems 0 (x :: xs)).length + 5) := uint32_iff.2 ⟨by omega, _, by rw [e1, List.append_assoc]⟩
    rw [parseArr, hu, Res.bind_ok, if_neg (by omega),
      all_items hE (x :: xs) (0 :: r) r _ _ _ 0 _ f (by simp) rfl (by omega) h2 hn g (by rw [e1, List.drop_left' (le_length _ _)]) (by omega) (by omega), res_assoc, res_assoc]
    rw [frame_length]
    rfl
  | .double w, r, o, f, h, hn, ho, hf => leaf_all hE _ rfl r o f h hn ho hf
  | .str s, r, o, f, h, hn, ho, hf => leaf_all hE _ rfl r o f h hn ho hf
  | .bin s b, r, o, f, h, hn, ho, hf => leaf_all hE _ rfl r o f h hn ho hf
  | .oid b, r, o, f, h, hn, ho, hf => leaf_all hE _ rfl r o f h hn ho hf
  | .bool b, r, o, f, h, hn, ho, hf => leaf_all hE _ rfl r o f h hn ho hf
  | .dateTime b, r, o, f, h, hn, ho, hf => leaf_all hE _ rfl r o f h hn ho hf
  | .null, r, o, f, h, hn, ho, hf => leaf_all hE _ rfl r o f h hn ho hf
  | .int32 n, r, o, f, h, hn, ho, hf => leaf_all hE _ rfl r o f h hn ho hf
  | .timestamp w, r, o, f, h, hn, ho, hf => leaf_all hE _ rfl r o f h hn ho hf
  | .int64 n, r, o, f, h, hn, ho, hf => leaf_all hE _ rfl r o f h hn ho hf
  | .dec128 b, r, o, f, h, hn, ho, hf => leaf_all hE _ rfl r o f h hn ho hf
theorem all_members (hE : IndexLaw E) : ∀ (kvs : List (Bytes × BElem)) (z r b : Bytes) (docLen pi : Nat) (ku : Bool) (m : List (Bytes × Val)) (f : Nat), kvs ≠ [] → z = 0 :: r → WFM kvs → NoOldM kvs → Given E (.obj ku m) →
    b.drop pi = members kvs ++ z → docLen - pi = (members kvs).length + 1 → 2 * (b.length - pi) + 1 ≤ f → docLoop E hid f b docLen pi ku m = readAllM E kvs m z >>= fun m' => .ok (.obj true m')
  | [], _, _, _, _, _, _, _, _, h, _, _, _, _, _, _, _ => absurd rfl h
  | (k, e) :: kvs, z, r, b, docLen, pi, ku, m, f + 1, _, hz, ⟨hk, h1, h2⟩, ⟨n1, n2⟩, g, hb, hd, hf => by
    have hb' : b.drop pi = ty e :: (k ++ 0 :: (payload e ++ (members kvs ++ z))) := by rw [hb, members]; simp
    have hl := drop_len _ _ _ hb'
    simp only [List.length_cons, List.length_append] at hl
    have hlm : (members ((k, e) :: kvs)).length = k.length + 2 + (payload e).length + (members kvs).length := by simp [members]; omega
    have hu := (element_facts hb' hk).2.2.2
    have gm := member_given (k := k) g.2.2
    have he := all_elem hE e (members kvs ++ z) (member E m k) f h1 n1 gm (by simp only [List.length_append]; omega)
    rw [docLoop_step g.1 (by omega) hb' hk, he, readAllM, res_assoc, res_assoc]
    cases hw : readAll E e ((member E m k).getD .null) (members kvs ++ z) with
    | err x => rfl
    | panic => rfl
    | loop => rfl
    | ok w =>
      rw [hw] at he
      have gw : Given E w := (Bson.given E hid f).2.2.1 _ _ _ _ (start_given gm) he
      simp only [Res.bind_ok]
      rw [drop_payload]
      by_cases hn : kvs = []
      · subst hn
        rw [if_pos ⟨by rw [hd, hlm]; simp [members], by rw [hz]; rfl⟩]
        rfl
      · have hpos := members_ne kvs hn
        rw [if_neg (by omega)]
        refine all_members hE kvs z r b docLen _ true _ f hn hz h2 n2 (put_given g hk gw) ?_ (by omega) (by omega)
        rw [show pi + (k.length + 2 + (payload e).length) = pi + 1 + k.length + 1 + (payload e).length by omega, ← List.drop_drop, hu, drop_payload]
theorem all_items (hE : IndexLaw E) : ∀ (xs : List BElem) (z r b : Bytes) (docLen pi i : Nat) (l : List Val) (f : Nat), xs ≠ [] → z = 0 :: r → i + xs.length < 2 ^ 31 → WFL xs → NoOldL xs → GivenL E l →
    b.drop pi = elems i xs ++ z → docLen - pi = (elems i xs).length + 1 → 2 * (b.length - pi) + 1 ≤ f → arrLoop E hid f b docLen pi l = readAllL E i xs l z >>= fun l' => .ok (.arr l')
  | [], _, _, _, _, _, _, _, _, h, _, _, _, _, _, _, _, _ => absurd rfl h
  | e :: es, z, r, b, docLen, pi, i, l, f + 1, _, hz, hi, ⟨h1, h2⟩, ⟨n1, n2⟩, g, hb, hd, hf => by
    simp only [List.length_cons] at hi
    have hi' : (BitVec.ofNat 64 i).toInt = i := ofNat_toInt i (by omega)
    have hlaw := hE i (by omega)
    have hk := decNat_not_zero i
    have hb' : b.drop pi = ty e :: (decNat i ++ 0 :: (payload e ++ (elems (i + 1) es ++ z))) := by rw [hb, elems]; simp
    have hl := drop_len _ _ _ hb'
    simp only [List.length_cons, List.length_append] at hl
    have hlm : (elems i (e :: es)).length = (decNat i).length + 2 + (payload e).length + (elems (i + 1) es).length := by simp [elems]; omega
    have hu := (element_facts hb' hk).2.2.2
    have gm : ∀ v, slot l i = some v → Given E v := slot_given g
    have he := all_elem hE e (elems (i + 1) es ++ z) (slot l i) f h1 n1 gm (by simp only [List.length_append]; omega)
    rw [arrLoop_step (by omega) hb' hk hlaw (by omega), hi', he, readAllL, res_assoc, res_assoc, slot_nat]
    rw [slot_nat] at he
    cases hw : readAll E e (l[i]?.getD .null) (elems (i + 1) es ++ z) with
    | err x => rfl
    | panic => rfl
    | loop => rfl
    | ok w =>
      rw [hw] at he
      rw [slot_nat] at gm
      have gw : Given E w := (Bson.given E hid f).2.2.1 _ _ _ _ (start_given gm) he
      simp only [Res.bind_ok]
      rw [drop_payload, store_nat]
      by_cases hn : es = []
      · subst hn
        rw [if_pos ⟨by rw [hd, hlm]; simp [elems], by rw [hz]; rfl⟩]
        rfl
      · have hpos := elems_ne (i + 1) es hn
        rw [if_neg (by omega)]
        refine all_items hE es z r b docLen _ (i + 1) _ f hn hz (by omega) h2 n2 (store_given' g gw) ?_ (by omega) (by omega)
        rw [show pi + ((decNat i).length + 2 + (payload e).length) = pi + 1 + (decNat i).length + 1 + (payload e).length by omega, ← List.drop_drop, hu, drop_payload]
end

/-- **C137** for all documents without binaries of subtype 2: what they are read as, or how they are refused. -/
theorem C137_all (E : Env) (hE : IndexLaw E) (hid rest : Bytes) (kvs : List (Bytes × BElem)) (hw : WF (.doc kvs)) (hn : NoOld (.doc kvs)) :
    newValueFromBson E hid (document kvs ++ rest) = readAll E (.doc kvs) .null rest := by
  have h := all_elem (hid := hid) hE (.doc kvs) rest none (2 * (document kvs ++ rest).length + 3) hw hn (by simp) (Nat.le_refl _)
  have h3 : parseElem E hid (2 * (document kvs ++ rest).length + 3) 3 (document kvs ++ rest) (start 3 none) = parseDoc E hid (2 * (document kvs ++ rest).length + 2) (document kvs ++ rest) false [] := by
    simp [parseElem, start]
  unfold newValueFromBson
  rw [← h3]
  have e : (payload (.doc kvs)) = document kvs := rfl
  rw [e] at h
  simp only [ty] at h
  rw [h, res_assoc]
  show _ = readAll E (.doc kvs) ((none : Option Val).getD .null) rest
  cases readAll E (.doc kvs) ((none : Option Val).getD .null) rest <;> rfl

theorem readAllM_distinct : ∀ (d : List (Bytes × BElem)) (m m' : List (Bytes × Val)) (r : Bytes), Assoc.Distinct E.keyMatch m → readAllM E d m r = .ok m' → Assoc.Distinct E.keyMatch m'
  | [], m, m', _, h, e => by cases e; exact h
  | (k, x) :: d, m, m', r, h, e => by
    rw [readAllM] at e
    replace e := Res.bind_eq_ok.1 e
    obtain ⟨w, _, e⟩ := e
    exact readAllM_distinct d _ _ r (Assoc.put_distinct h k w) e

theorem readAllM_prefix : ∀ (d : List (Bytes × BElem)) (m m' : List (Bytes × Val)) (r : Bytes), Assoc.Distinct E.keyMatch d → (∀ a ∈ m, ∀ x ∈ d, E.keyMatch a.1 x.1 = false) → readAllM E d m r = .ok m' → ∃ t, m' = m ++ t
  | [], m, m', _, _, _, e => by cases e; exact ⟨[], by simp⟩
  | (k, x) :: d, m, m', r, h, hm, e => by
    simp only [Assoc.Distinct, List.map_cons, List.pairwise_cons] at h
    rw [readAllM] at e
    replace e := Res.bind_eq_ok.1 e
    obtain ⟨w, _, e⟩ := e
    rw [Assoc.put_new (fun a ha => hm a ha (k, x) (by simp))] at e
    obtain ⟨t, ht⟩ := readAllM_prefix d _ _ r h.2 (by
      intro a ha y hy
      rcases List.mem_append.1 ha with ha | ha
      · exact hm a ha y (List.mem_cons_of_mem _ hy)
      · obtain rfl := List.mem_singleton.1 ha
        exact h.1 y.1 (List.mem_map_of_mem hy)) e
    exact ⟨(k, w) :: t, by rw [ht]; simp⟩

theorem readAllL_prefix : ∀ (d : List BElem) (l l' : List Val) (r : Bytes), readAllL E l.length d l r = .ok l' → ∃ t, l' = l ++ t
  | [], l, l', _, e => by cases e; exact ⟨[], by simp⟩
  | x :: d, l, l', r, e => by
    rw [readAllL] at e
    replace e := Res.bind_eq_ok.1 e
    obtain ⟨w, _, e⟩ := e
    rw [if_neg (Nat.lt_irrefl _), show l.length + 1 = (l ++ [w]).length by simp] at e
    obtain ⟨t, ht⟩ := readAllL_prefix d _ _ r e
    exact ⟨w :: t, by rw [ht]; simp⟩

theorem put_ne_nil (m : List (Bytes × Val)) (k : Bytes) (v : Val) : Assoc.put E.keyMatch m k v ≠ [] := by
  cases m with
  | nil => simp [Assoc.put]
  | cons a m => simp only [Assoc.put]; split <;> simp

mutual
/-- What comes back as it was has no empty object or array in it. -/
theorem solid_back : ∀ (v : Val) (r : Bytes), NoOld (data E v) → readAll E (data E v) .null r = .ok v → Solid (data E v)
  | .obj ku [], r, _, h => by
    simp only [data, dataM, readAll] at h
    split at h
    · cases h
    · injection h with h
      injection h with _ h
      exact absurd h (put_ne_nil _ _ _)
  | .obj ku ((k, v) :: kvs), r, hn, h => by
    simp only [data, dataM, readAll] at h
    replace h := Res.bind_eq_ok.1 h
    obtain ⟨m, hm, h⟩ := h
    injection h with h
    injection h with h1 h2
    subst h1
    subst h2
    have hd := readAllM_distinct _ _ _ _ (by simp [Assoc.Distinct]) hm
    refine ⟨by simp [dataM], solid_backM ((k, v) :: kvs) [] (0 :: r) hn hd (by simp) ?_⟩
    rw [dataM]
    exact hm
  | .arr [], r, _, h => by
    simp only [data, dataL, readAll] at h
    split at h
    · cases h
    · split at h
      · cases h
      · split at h
        · cases h
        · injection h with h
          injection h with h
          simp [store] at h
  | .arr (v :: vs), r, hn, h => by
    simp only [data, dataL, readAll] at h
    replace h := Res.bind_eq_ok.1 h
    obtain ⟨m, hm, h⟩ := h
    injection h with h
    injection h with h
    subst h
    refine ⟨by simp [dataL], solid_backL (v :: vs) [] (0 :: r) hn ?_⟩
    rw [dataL]
    exact hm
  | .nil, _, _, _ | .null, _, _, _ | .tru, _, _, _ | .fls, _, _, _ | .float _, _, _, _ | .double _, _, _, _ | .dateTime _, _, _, _ | .str _, _, _, _ | .raw _, _, _, _ | .nan, _, _, _ | .inf, _, _, _ => trivial
  | .int e c, _, _, _ => by
    rw [data]
    split
    · trivial
    · split <;> trivial
  | .bin x b, _, hn, _ => by
    rw [data] at hn ⊢
    split
    · trivial
    · split
      · trivial
      · rename_i h1 h2; rw [if_neg h1, if_neg h2] at hn; exact hn
  | .exbin x b, _, hn, _ => by
    rw [data] at hn ⊢
    split
    · rename_i h1; rw [if_pos h1] at hn; exact hn
    · rename_i h1; rw [if_neg h1] at hn; exact hn
theorem solid_backM : ∀ (kvs : List (Bytes × Val)) (m : List (Bytes × Val)) (r : Bytes), NoOldM (dataM E true kvs) → Assoc.Distinct E.keyMatch kvs → (∀ a ∈ m, ∀ x ∈ kvs, E.keyMatch a.1 x.1 = false) →
    readAllM E (dataM E true kvs) m r = .ok (m ++ kvs) → SolidM (dataM E true kvs)
  | [], _, _, _, _, _, _ => trivial
  | (k, v) :: kvs, m, r, hn, hd, hm, h => by
    have hd' := hd
    simp only [Assoc.Distinct, List.map_cons, List.pairwise_cons] at hd'
    simp only [dataM, if_true, readAllM] at h
    replace h := Res.bind_eq_ok.1 h
    obtain ⟨w, hw, h⟩ := h
    have h0 : member E m k = none := by
      unfold member
      rw [List.find?_eq_none.2 (fun a ha => by rw [hm a ha (k, v) (by simp)]; simp)]
      rfl
    rw [h0] at hw
    rw [Assoc.put_new (fun a ha => hm a ha (k, v) (by simp))] at h
    have hm' : ∀ a ∈ m ++ [(k, w)], ∀ x ∈ kvs, E.keyMatch a.1 x.1 = false := by
      intro a ha y hy
      rcases List.mem_append.1 ha with ha | ha
      · exact hm a ha y (List.mem_cons_of_mem _ hy)
      · obtain rfl := List.mem_singleton.1 ha
        exact hd'.1 y.1 (List.mem_map_of_mem hy)
    obtain ⟨t, ht⟩ := readAllM_prefix _ _ _ r ((dataM_distinct kvs).2 hd'.2) (by
      intro a ha y hy
      have hy' : y.1 ∈ (dataM E true kvs).map Prod.fst := List.mem_map_of_mem hy
      rw [dataM_names] at hy'
      obtain ⟨z, hz, e⟩ := List.mem_map.1 hy'
      rw [← e]
      exact hm' a ha z hz) h
    rw [List.append_assoc] at ht
    have ht := List.append_cancel_left ht
    simp only [List.cons_append, List.nil_append, List.cons.injEq, Prod.mk.injEq, true_and] at ht
    obtain ⟨rfl, rfl⟩ := ht
    rw [dataM]
    exact ⟨solid_back v _ hn.1 hw, solid_backM kvs (m ++ [(k, v)]) r hn.2 hd'.2 hm' (by rw [h]; simp)⟩
theorem solid_backL : ∀ (vs l : List Val) (r : Bytes), NoOldL (dataL E vs) → readAllL E l.length (dataL E vs) l r = .ok (l ++ vs) → SolidL (dataL E vs)
  | [], _, _, _, _ => trivial
  | v :: vs, l, r, hn, h => by
    simp only [dataL, readAllL] at h
    replace h := Res.bind_eq_ok.1 h
    obtain ⟨w, hw, h⟩ := h
    rw [List.getElem?_eq_none (Nat.le_refl _)] at hw
    rw [if_neg (Nat.lt_irrefl _), show l.length + 1 = (l ++ [w]).length by simp] at h
    obtain ⟨t, ht⟩ := readAllL_prefix _ _ _ r h
    rw [List.append_assoc] at ht
    have ht := List.append_cancel_left ht
    simp only [List.cons_append, List.nil_append, List.cons.injEq] at ht
    obtain ⟨rfl, rfl⟩ := ht
    rw [dataL]
    exact ⟨solid_back v _ hn.1 hw, solid_backL vs (l ++ [v]) r hn.2 (by rw [h]; simp)⟩
end

/-- **C15**, exactly: an object that BSON can carry comes back as it was if and only if no empty object or array is in it (nor is it empty itself) and each of its parts is one of `Fixed`. So no object with an empty object or array in it ever comes back. -/
theorem C15_exact (E : Env) (hE : IndexLaw E) (hid rest : Bytes) (ku : Bool) (kvs : List (Bytes × Val)) (h : WritableM kvs) (hw : WF (data E (.obj ku kvs))) (hn : NoOld (data E (.obj ku kvs))) :
    (∃ bs, value2Bson E (.obj ku kvs) [] = .ok bs ∧ newValueFromBson E hid (bs ++ rest) = .ok (.obj ku kvs)) ↔ Solid (data E (.obj ku kvs)) ∧ Fixed E (.obj ku kvs) := by
  constructor
  · rintro ⟨bs, h1, h2⟩
    have h3 := C12_document E ku kvs [] h
    have h4 := h2
    rw [h1] at h3
    cases h3
    have ha := C137_all E hE hid rest (dataM E ku kvs) (by rw [← data]; exact hw) (by rw [← data]; exact hn)
    have hs : Solid (data E (.obj ku kvs)) := by
      refine solid_back _ rest hn ?_
      rw [data, ← ha]
      simpa using h2
    exact ⟨hs, (C13_iff E hE hid rest ku kvs h hw hs).1 ⟨_, h1, h4⟩⟩
  · rintro ⟨hs, hf⟩
    exact (C13_iff E hE hid rest ku kvs h hw hs).2 hf

/-- What an object comes back as, or how it is refused, empty objects and arrays in it or not. -/
theorem C15_comes_back (E : Env) (hE : IndexLaw E) (hid rest : Bytes) (ku : Bool) (kvs : List (Bytes × Val)) (h : WritableM kvs) (hw : WF (data E (.obj ku kvs))) (hn : NoOld (data E (.obj ku kvs))) :
    ∃ bs, value2Bson E (.obj ku kvs) [] = .ok bs ∧ newValueFromBson E hid (bs ++ rest) = readAll E (data E (.obj ku kvs)) .null rest := by
  refine ⟨_, C12_document E ku kvs [] h, ?_⟩
  rw [data] at hw hn ⊢
  exact C137_all E hE hid rest _ hw hn

/-! `{"a": {}, "b": 1}`: the empty document takes the `b` and what is before it as a name. An empty array there is refused. -/
def hollow : List (Bytes × BElem) := [([97], .doc []), ([98], .int32 1)]
example : newValueFromBson envEx [] (document hollow) = .ok (.obj true [([97], .obj true [([16, 98], .null)]), ([98], .int 0 1)]) := by decide +kernel
example : readAll envEx (.doc hollow) .null [] = .ok (.obj true [([97], .obj true [([16, 98], .null)]), ([98], .int 0 1)]) := by decide +kernel
example : readAll envEx (.doc [([97], .arr []), ([98], .int32 1)]) .null [] = .err .bsonArrayIndex := by decide +kernel
example : readAll envEx (.doc []) .null [] = .err .invalidBson := by decide +kernel
example : WF (.doc hollow) ∧ NoOld (.doc hollow) ∧ ¬ Solid (.doc hollow) := by
  refine ⟨⟨by decide +kernel, ?_⟩, ?_, ?_⟩
  · simp only [hollow, WFM, WF]; decide +kernel
  · simp [hollow, NoOld, NoOldM]
  · simp [hollow, Solid, SolidM]

end Dxs.Bson
