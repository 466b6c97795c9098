import Verif.Props.BsonIndex

/-! # C64, exactly: what a document with any length field is read as -/

namespace Dxs.Bson
open Spec
variable {E : Env} {hid : Bytes}

theorem ty_ne_zero (e : BElem) : ty e ≠ 0 := by cases e <;> simp [ty]

theorem upTo_zero (kvs : List (Bytes × BElem)) : upTo 0 kvs = [] := by cases kvs <;> rfl

theorem upTo_nil (n : Nat) : upTo n [] = [] := by cases n <;> rfl

theorem upTo_cons {n : Nat} (h : 0 < n) (k : Bytes) (e : BElem) (kvs : List (Bytes × BElem)) : upTo n ((k, e) :: kvs) = (k, e) :: upTo (n - (k.length + 2 + (payload e).length)) kvs := by
  cases n with
  | zero => omega
  | succ n => rfl

theorem short_loop (hE : IndexLaw E) : ∀ (kvs : List (Bytes × BElem)) (r b : Bytes) (docLen pi : Nat) (ku : Bool) (m : List (Bytes × Val)) (f : Nat), WFM kvs → SolidM kvs → Given E (.obj ku m) →
    b.drop pi = members kvs ++ 0 :: r → docLen - pi ≤ (members kvs).length + 1 → (kvs = [] → docLen - pi = 0) → 2 * (b.length - pi) + 1 ≤ f →
    docLoop E hid f b docLen pi ku m = .ok (.obj (ku || !(upTo (docLen - pi) kvs).isEmpty) (readingM E (upTo (docLen - pi) kvs) m))
  | [], r, b, docLen, pi, ku, m, f + 1, _, _, _, _, _, h0, _ => by
    rw [docLoop, if_neg (by have := h0 rfl; omega), upTo_nil]
    simp [readingM]
  | (k, e) :: kvs, r, b, docLen, pi, ku, m, f + 1, ⟨hk, h1, h2⟩, ⟨s1, s2⟩, g, hb, hd, _, hf => by
    by_cases hz : docLen - pi = 0
    · rw [docLoop, if_neg (by omega), hz, upTo_zero]
      simp [readingM]
    have hb' : b.drop pi = ty e :: (k ++ 0 :: (payload e ++ (members kvs ++ 0 :: r))) := by rw [hb, members]; simp
    have hl := drop_len _ _ _ hb'
    simp only [List.length_cons, List.length_append] at hl
    have hlm : (members ((k, e) :: kvs)).length = k.length + 2 + (payload e).length + (members kvs).length := by simp [members]; omega
    have hu := (element_facts hb' hk).2.2.2
    have gs : Given E (start (ty e) (member E m k)) := start_given (member_given g.2.2)
    have he := elem_parse (reads (hid := hid) hE e (members kvs ++ 0 :: r) (member E m k) h1 s1) gs f (by simp only [List.length_append, List.length_cons]; omega)
    have gw := (Bson.given E hid f).2.2.1 _ _ _ _ gs he
    rw [upTo_cons (by omega), readingM, docLoop_step g.1 (by omega) hb' hk, he, Res.bind_ok]
    dsimp only
    rw [drop_payload]
    have e0 : docLen - (pi + (k.length + 2 + (payload e).length)) = docLen - pi - (k.length + 2 + (payload e).length) := by omega
    split
    · rename_i hend
      have hn : kvs = [] := by
        cases kvs with
        | nil => rfl
        | cons x kvs =>
          obtain ⟨k', e'⟩ := x
          have h3 := hend.2
          simp only [members, List.cons_append, List.head?_cons, Option.some.injEq] at h3
          exact absurd h3 (ty_ne_zero e')
      subst hn
      rw [upTo_nil]
      simp [readingM]
    · rename_i hend
      have := short_loop hE kvs r b docLen (pi + (k.length + 2 + (payload e).length)) true (Assoc.put E.keyMatch m k (reading E e ((member E m k).getD .null))) f h2 s2 (put_given g hk gw)
        (by rw [show pi + (k.length + 2 + (payload e).length) = pi + 1 + k.length + 1 + (payload e).length by omega, ← List.drop_drop, hu, drop_payload]) (by omega)
        (by
          intro hn
          subst hn
          rw [hlm] at hd
          have h0 : (members []).length = 0 := rfl
          simp only [members, List.nil_append, List.head?_cons, and_true] at hend
          omega) (by omega)
      rw [this, e0]
      simp

/-- A length field up to the right one: the members that begin before its end are read, and the document is accepted, whether it ends with one of them or in the middle. -/
theorem C64_short_exact (E : Env) (hE : IndexLaw E) (hid rest : Bytes) (kvs : List (Bytes × BElem)) (n : Nat) (hne : kvs ≠ []) (hw : WF (.doc kvs)) (hs : Solid (.doc kvs)) (hn : n ≤ (members kvs).length + 5) :
    newValueFromBson E hid (le 4 n ++ (members kvs ++ 0 :: rest)) = .ok (.obj (!(upTo (n - 4) kvs).isEmpty) (readingM E (upTo (n - 4) kvs) [])) := by
  obtain ⟨hw1, hw2⟩ := hw
  have hpos := members_ne kvs hne
  have hl : (le 4 n ++ (members kvs ++ 0 :: rest)).length = (members kvs).length + 5 + rest.length := by simp; omega
  have hu : uint32 hid (le 4 n ++ (members kvs ++ 0 :: rest)) = .ok n := uint32_iff.2 ⟨by omega, _, by rw [List.append_assoc]⟩
  unfold newValueFromBson
  rw [parseDoc, if_neg (by omega), hu, Res.bind_ok, if_neg (by omega),
    short_loop hE kvs rest _ n 4 false [] _ hw2 hs.2 ⟨.inr rfl, by simp [Assoc.Distinct], trivial⟩ (by rw [List.drop_left' (le_length _ _)]) (by omega) (fun h => absurd h hne) (by omega)]
  simp

/-- **C64**, exactly: what becomes of a document when its length field says `n`. -/
theorem C64_exact (E : Env) (hE : IndexLaw E) (hid : Bytes) (kvs : List (Bytes × BElem)) (n : Nat) (hne : kvs ≠ []) (hw : WF (.doc kvs)) (hs : Solid (.doc kvs)) (hn : n < 2 ^ 32) :
    newValueFromBson E hid (le 4 n ++ (members kvs ++ [0])) = if n ≤ (members kvs).length + 5 then .ok (.obj (!(upTo (n - 4) kvs).isEmpty) (readingM E (upTo (n - 4) kvs) [])) else .err .badBsonLen := by
  split
  · rename_i h
    exact C64_short_exact E hE hid [] kvs n hne hw hs h
  · rename_i h
    have hl : (le 4 n ++ (members kvs ++ [0])).length = (members kvs).length + 5 := by simp; omega
    have hu : uint32 hid (le 4 n ++ (members kvs ++ [0])) = .ok n := uint32_iff.2 ⟨by omega, _, by rw [List.append_assoc]⟩
    unfold newValueFromBson
    rw [parseDoc, if_neg (by omega), hu, Res.bind_ok, if_pos (by omega)]
    rfl

/-- `{"a": true, "b": "x"}` is 18 bytes; with the length 9 its second member is read as well, with 8 it is not. -/
example : (members [([97], .bool true), ([98], .str [120])]).length + 5 = 18 := by decide +kernel
example : newValueFromBson envEx [] (le 4 9 ++ (members [([97], .bool true), ([98], .str [120])] ++ [0])) = .ok (.obj true [([97], .tru), ([98], .str [120])]) := by decide +kernel
example : newValueFromBson envEx [] (le 4 8 ++ (members [([97], .bool true), ([98], .str [120])] ++ [0])) = .ok (.obj true [([97], .tru)]) := by decide +kernel
example : upTo 4 [([97], .bool true), ([98], .str [120])] = [([97], .bool true)] := by simp [upTo, payload]

end Dxs.Bson
