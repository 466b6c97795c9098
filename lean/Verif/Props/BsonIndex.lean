import Verif.Bson.Index
import Verif.Props.BsonReadingAll

/-! # C68, exactly: what arrays with any names are read as -/

namespace Dxs.Bson
open Spec
variable {E : Env} {hid : Bytes}

/-- A name that is no index ends the array with an error. -/
theorem arrLoop_bad {f : Nat} {b k u : Bytes} {docLen pi : Nat} {l : List Val} {ty : UInt8} (hd : pi < docLen) (h : b.drop pi = ty :: (k ++ 0 :: u)) (hk : (0 : UInt8) ∉ k)
    (hi : ((E.strToInt k).map BitVec.toInt).getD (-1) = -1) : arrLoop E hid (f + 1) b docLen pi l = .err .bsonArrayIndex := by
  have hd1 : b.drop (pi + 1) = k ++ 0 :: u := by rw [← List.drop_drop, h]; rfl
  rw [arrLoop, if_pos hd, at_drop _ pi _ _ h, Res.bind_ok]
  dsimp only
  rw [hd1, idxOf_key k u hk]
  dsimp only
  rw [List.take_left, if_pos hi]

theorem all_store (hE : IndexLaw E) : ∀ (kvs : List (Bytes × BElem)) (r b : Bytes) (docLen pi : Nat) (l : List Val) (f : Nat), kvs ≠ [] → WFM kvs → SolidM kvs → GivenL E l →
    b.drop pi = members kvs ++ 0 :: r → docLen - pi = (members kvs).length + 1 → 2 * (b.length - pi) + 1 ≤ f → arrLoop E hid f b docLen pi l = storing E kvs l >>= fun l' => .ok (.arr l')
  | [], _, _, _, _, _, _, h, _, _, _, _, _, _ => absurd rfl h
  | (k, e) :: kvs, r, b, docLen, pi, l, f + 1, _, ⟨hk, h1, h2⟩, ⟨s1, s2⟩, g, hb, hd, hf => by
    have hb' : b.drop pi = ty e :: (k ++ 0 :: (payload e ++ (members kvs ++ 0 :: r))) := by rw [hb, members]; simp
    have hl := drop_len _ _ _ hb'
    simp only [List.length_cons, List.length_append] at hl
    have hlm : (members ((k, e) :: kvs)).length = k.length + 2 + (payload e).length + (members kvs).length := by simp [members]; omega
    have hu := (element_facts hb' hk).2.2.2
    rw [storing]
    cases hi : E.strToInt k with
    | none => rw [arrLoop_bad (by omega) hb' hk (by rw [hi]; rfl)]; rfl
    | some i =>
      dsimp only
      by_cases hm : i.toInt = -1
      · rw [if_pos hm, arrLoop_bad (by omega) hb' hk (by rw [hi]; exact hm)]; rfl
      · rw [if_neg hm]
        have gs : Given E (start (ty e) (slot l i.toInt)) := start_given (slot_given g)
        have he := elem_parse (reads (hid := hid) hE e (members kvs ++ 0 :: r) (slot l i.toInt) h1 s1) gs f (by simp only [List.length_append, List.length_cons]; omega)
        have gw := (Bson.given E hid f).2.2.1 _ _ _ _ gs he
        rw [arrLoop_step (by omega) hb' hk hi hm, he, Res.bind_ok]
        dsimp only
        rw [drop_payload]
        by_cases hn : kvs = []
        · subst hn
          rw [if_pos ⟨by rw [hd, hlm]; simp [members], rfl⟩]
          rfl
        · have hpos := members_ne kvs hn
          rw [if_neg (by omega)]
          refine all_store hE kvs r b docLen _ _ f hn h2 s2 (store_given g gw) ?_ (by omega) (by omega)
          rw [show pi + (k.length + 2 + (payload e).length) = pi + 1 + k.length + 1 + (payload e).length by omega, ← List.drop_drop, hu, drop_payload]

/-- **C68**, exactly: what an array is read as, or how it is refused, whatever the names of its elements. -/
theorem C68_exact (E : Env) (hE : IndexLaw E) (hid rest name : Bytes) (kvs : List (Bytes × BElem)) (hk : (0 : UInt8) ∉ name) (hne : kvs ≠ []) (hw : WFM kvs) (hs : SolidM kvs) (hlen : (arrayDoc name kvs).length < 2 ^ 31) :
    newValueFromBson E hid (arrayDoc name kvs ++ rest) = storing E kvs [] >>= fun l => .ok (.obj true [(name, .arr l)]) := by
  obtain ⟨m, hm⟩ : ∃ m, m = members kvs := ⟨_, rfl⟩
  have hpos := members_ne kvs hne
  rw [← hm] at hpos
  have hl : (arrayDoc name kvs).length = name.length + m.length + 12 := by simp [arrayDoc, frame_length, hm]; omega
  have e1 : arrayDoc name kvs ++ rest = le 4 (name.length + m.length + 12) ++ (4 :: (name ++ 0 :: (frame m ++ 0 :: rest))) := by
    rw [arrayDoc, ← hm, frame]
    have : (4 :: (name ++ 0 :: frame m)).length + 5 = name.length + m.length + 12 := by simp [frame_length]; omega
    rw [this]
    simp
  have e2 : frame m ++ 0 :: rest = le 4 (m.length + 5) ++ (m ++ 0 :: (0 :: rest)) := by simp [frame]
  obtain ⟨F, hF⟩ : ∃ F, 2 * (arrayDoc name kvs ++ rest).length + 2 = F + 4 := ⟨2 * (arrayDoc name kvs ++ rest).length - 2, by simp only [List.length_append]; omega⟩
  unfold newValueFromBson
  rw [hF]
  have hal : (arrayDoc name kvs ++ rest).length = name.length + m.length + 12 + rest.length := by simp [hl]
  rw [hal] at hF
  have hu : uint32 hid (arrayDoc name kvs ++ rest) = .ok (name.length + m.length + 12) := uint32_iff.2 ⟨by omega, _, by rw [e1, List.append_assoc]⟩
  have hb : (arrayDoc name kvs ++ rest).drop 4 = 4 :: (name ++ 0 :: (frame m ++ 0 :: rest)) := by rw [e1, List.drop_left' (le_length _ _)]
  have hu2 : uint32 hid (frame m ++ 0 :: rest) = .ok (m.length + 5) := uint32_iff.2 ⟨by omega, _, by rw [e2, List.append_assoc]⟩
  have hfl : (frame m ++ 0 :: rest).length = m.length + 6 + rest.length := by simp [frame_length]; omega
  have hel : parseElem E hid (F + 2) 4 (frame m ++ 0 :: rest) (start 4 (member E [] name)) = storing E kvs [] >>= fun l => .ok (m.length + 5, .arr l) := by
    simp only [parseElem, show start 4 (member E [] name) = .arr [] from rfl, show ((4 : UInt8) == 4) = true from rfl, if_true]
    rw [parseArr, hu2, Res.bind_ok, if_neg (by omega), all_store hE kvs (0 :: rest) _ _ _ [] F hne hw hs trivial (by rw [e2, List.drop_left' (le_length _ _), hm]) (by rw [hm]; omega) (by omega), res_assoc]
    rfl
  rw [parseDoc, if_neg (by omega), hu, Res.bind_ok, if_neg (by omega), docLoop_step (.inr rfl) (by omega) hb hk, hel, res_assoc, res_assoc, res_assoc]
  cases storing E kvs [] with
  | err x => rfl
  | panic => rfl
  | loop => rfl
  | ok l =>
    simp only [Res.bind_ok]
    rw [if_pos ⟨by omega, by rw [show m.length + 5 = (frame m).length by rw [frame_length], List.drop_left]; rfl⟩]
    rfl

/-- So the array of three elements named 2, 0, 0 is read as one of one: the first becomes element 0, and the others are read over it. -/
example : storing envEx [([50], .bool true), ([48], .str [97]), ([48], .str [98])] [] = .ok [.str [98]] := by decide +kernel
example : newValueFromBson envEx [] (arrayDoc [97] [([50], .bool true), ([48], .str [97]), ([48], .str [98])]) = .ok (.obj true [([97], .arr [.str [98]])]) := by decide +kernel
example : newValueFromBson envEx [] (arrayDoc [97] [([50], .bool true), ([120], .null)]) = .err .bsonArrayIndex := by decide +kernel

end Dxs.Bson
