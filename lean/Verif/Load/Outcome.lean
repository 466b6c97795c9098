import Verif.Load.BsonSim
import Verif.Load.IntoJson

/-!
# The outcome of a parser does not depend on the memory

Whether a text is accepted, which error it gets, and where the parser stops: the same in every memory, for new values and for values that exist.
-/

namespace Dxs.Heap
open MsgPack
open Bson (targetType)

/-- The same outcome: success (with results that agree in the part that `f` and `g` look at), the same error, a panic, no end. -/
def Alike {α β γ : Type} (f : α → γ) (g : β → γ) : Out α → Out β → Prop
  | .ok a _, .ok b _ => f a = g b
  | .err e _, .err e' _ => e = e'
  | .panic, .panic => True
  | .loop, .loop => True
  | _, _ => False

section
variable {α β γ α' β' γ' : Type} {f : α → γ} {g : β → γ} {f' : α' → γ'} {g' : β' → γ'}

theorem Alike.bind {x : Out α} {y : Out β} (l : Alike f g x y) {F : α → Heap → Out α'} {G : β → Heap → Out β'} (k : ∀ a b h h', f a = g b → Alike f' g' (F a h) (G b h')) :
    Alike f' g' (x.bind F) (y.bind G) := by
  match x, y, l with
  | .ok a h, .ok b h', e => exact k a b h h' e
  | .err _ _, .err _ _, e => exact e
  | .panic, .panic, _ => trivial
  | .loop, .loop, _ => trivial

theorem Alike.lift {ρ : Type} (r : Res ρ) {h h' : Heap} {F : ρ → Heap → Out α} {G : ρ → Heap → Out β} (k : ∀ a, Alike f g (F a h) (G a h')) :
    Alike f g ((Out.lift r h).bind F) ((Out.lift r h').bind G) := by
  cases r with
  | ok a => exact k a
  | err _ => rfl
  | panic => trivial
  | loop => trivial

theorem Alike.orFree {x : Out α} {y : Out β} (l : Alike f g x y) (r r' : Ptr) : Alike f g (x.orFree r) (y.orFree r') := by
  match x, y, l with
  | .ok a h, .ok b h', e => exact e
  | .err _ _, .err _ _, e => exact e
  | .panic, .panic, _ => trivial
  | .loop, .loop, _ => trivial

/-- More is done after success. -/
theorem Alike.right {x : Out α} {y : Out β} (l : Alike f g x y) {k : β → Heap → β'} {m : β → Heap → Heap} {g' : β' → γ} (hk : ∀ b h, g' (k b h) = g b) :
    Alike f g' x (y.bind fun b h => .ok (k b h) (m b h)) := by
  match x, y, l with
  | .ok a h, .ok b h', e => exact Eq.trans e (hk b h').symm
  | .err _ _, .err _ _, e => exact e
  | .panic, .panic, _ => trivial
  | .loop, .loop, _ => trivial

theorem Alike.ite {P : Prop} [Decidable P] {x x' : Out α} {y y' : Out β} (a : P → Alike f g x y) (b : ¬P → Alike f g x' y') : Alike f g (if P then x else x') (if P then y else y') := by
  by_cases h : P
  · rw [if_pos h, if_pos h]; exact a h
  · rw [if_neg h, if_neg h]; exact b h

theorem Alike.trans {δ : Type} {k : δ → γ} {x : Out α} {y : Out β} {z : Out δ} (l : Alike f g x y) (m : Alike g k y z) : Alike f k x z := by
  match x, y, z, l, m with
  | .ok _ _, .ok _ _, .ok _ _, e, e' => exact Eq.trans e e'
  | .err _ _, .err _ _, .err _ _, e, e' => exact Eq.trans e e'
  | .panic, .panic, .panic, _, _ => trivial
  | .loop, .loop, .loop, _, _ => trivial

theorem Alike.symm {x : Out α} {y : Out β} (l : Alike f g x y) : Alike g f y x := by
  match x, y, l with
  | .ok _ _, .ok _ _, e => exact Eq.symm e
  | .err _ _, .err _ _, e => exact Eq.symm e
  | .panic, .panic, _ => trivial
  | .loop, .loop, _ => trivial
end

/-- Nothing is looked at. -/
def unit {α : Type} (_ : α) : Unit := ()

/-! ## MessagePack -/

theorem elemsH_alike {P Q : Heap → Bytes → Out (Option Ptr × Bytes)} (hp : ∀ h h' b, Alike Prod.snd Prod.snd (P h b) (Q h' b)) (r r' : Ptr) :
    ∀ n h h' b, Alike id id (elemsH P r n h b) (elemsH Q r' n h' b)
  | 0, _, _, _ => rfl
  | n + 1, h, h', b => by
    rw [elemsH, elemsH]
    refine (hp h h' b).bind (fun x y _ _ e => ?_)
    rw [e]
    exact elemsH_alike hp r r' n _ _ _

theorem membersH_alike (E : Env) {P Q : Heap → Bytes → Out (Option Ptr × Bytes)} (hp : ∀ h h' b, Alike Prod.snd Prod.snd (P h b) (Q h' b)) (r r' : Ptr) :
    ∀ n h h' b, Alike id id (membersH E P r n h b) (membersH E Q r' n h' b)
  | 0, _, _, _ => rfl
  | n + 1, h, h', b => by
    rw [membersH, membersH]
    refine Alike.lift _ (fun _ => Alike.lift _ (fun _ => (hp _ _ _).bind (fun x y _ _ e => ?_)))
    rw [e]
    exact membersH_alike E hp r r' n _ _ _

theorem parseValueH_alike (E : Env) : ∀ fuel c c' h h' b, Alike Prod.snd Prod.snd (parseValueH E fuel c h b) (parseValueH E fuel c' h' b)
  | 0, _, _, _, _, _ => trivial
  | fuel + 1, c, c', h, h', b => by
    have ih := parseValueH_alike E fuel
    have num : ∀ (x : Res (Nat × Bytes)) (F G : Nat → Heap → Ptr × Heap), Alike Prod.snd Prod.snd ((Out.lift x h).bind fun ub h => ret (F ub.1 h) ub.2) ((Out.lift x h').bind fun ub h => ret (G ub.1 h) ub.2) :=
      fun x F G => Alike.lift x (fun _ => rfl)
    rw [parseValueH, parseValueH]
    refine Alike.lift _ (fun cb => ?_)
    dsimp only
    refine Alike.ite (fun _ => Alike.lift _ (fun _ => rfl)) (fun _ => ?_)
    refine Alike.ite (fun _ => ?_) (fun _ => ?_)
    · unfold arrayH
      refine Alike.lift _ (fun nb => Alike.ite (fun _ => rfl) (fun _ => ?_))
      exact ((elemsH_alike (ih _ _) _ _ _ _ _ _).orFree _ _).bind (fun _ _ _ _ e => e)
    refine Alike.ite (fun _ => ?_) (fun _ => ?_)
    · unfold objectH
      refine Alike.lift _ (fun nb => Alike.ite (fun _ => rfl) (fun _ => ?_))
      cases nb.2 with
      | nil => trivial
      | cons k t =>
        refine Alike.ite (fun _ => rfl) (fun _ => ?_)
        exact ((membersH_alike E (ih _ _) _ _ _ _ _ _).orFree _ _).bind (fun _ _ _ _ e => e)
    refine Alike.ite (fun _ => rfl) (fun _ => ?_)
    refine Alike.ite (fun _ => Alike.lift _ (fun _ => rfl)) (fun _ => ?_)
    refine Alike.ite (fun _ => Alike.lift _ (fun _ => rfl)) (fun _ => ?_)
    refine Alike.ite (fun _ => Alike.lift _ (fun _ => rfl)) (fun _ => ?_)
    refine Alike.ite (fun _ => Alike.lift _ (fun _ => rfl)) (fun _ => ?_)
    refine Alike.ite (fun _ => Alike.lift _ (fun _ => rfl)) (fun _ => ?_)
    refine Alike.ite (fun _ => Alike.lift _ (fun _ => rfl)) (fun _ => ?_)
    refine Alike.ite (fun _ => Alike.lift _ (fun _ => rfl)) (fun _ => ?_)
    refine Alike.ite (fun _ => Alike.lift _ (fun _ => rfl)) (fun _ => ?_)
    refine Alike.ite (fun _ => Alike.lift _ (fun _ => rfl)) (fun _ => ?_)
    refine Alike.ite (fun _ => rfl) (fun _ => ?_)
    refine Alike.ite (fun _ => rfl) (fun _ => ?_)
    refine Alike.ite (fun _ => rfl) (fun _ => ?_)
    refine Alike.ite (fun _ => ?_) (fun _ => ?_)
    · unfold binH
      exact Alike.lift _ (fun nb => Alike.ite (fun _ => rfl) (fun _ => rfl))
    refine Alike.ite (fun _ => ?_) (fun _ => rfl)
    unfold extH
    refine Alike.lift _ (fun nb => Alike.ite (fun _ => rfl) (fun _ => Alike.lift _ (fun _ => ?_)))
    cases nb.2 with
    | nil => trivial
    | cons k t => exact Alike.ite (fun _ => Alike.lift _ (fun _ => rfl)) (fun _ => rfl)

/-- Into a value that exists. -/
theorem parse2H_alike (E : Env) (fuel : Nat) (p : Ptr) (c : Option CId) (h h' : Heap) (b : Bytes) : Alike unit unit (parse2H E fuel p h b) (parseValueH E (fuel + 1) c h' b) := by
  have ih := parseValueH_alike E fuel
  unfold parse2H
  rw [parseValueH]
  refine Alike.lift _ (fun cb => ?_)
  dsimp only
  refine Alike.ite (fun _ => Alike.lift _ (fun _ => rfl)) (fun _ => ?_)
  refine Alike.ite (fun _ => ?_) (fun _ => ?_)
  · unfold arrayH array2H
    refine Alike.lift _ (fun nb => Alike.ite (fun _ => rfl) (fun _ => ?_))
    have := ((elemsH_alike (ih (h.mem p).owner (childCache (getValue h' c .array).2 c (getValue h' c .array).1)) p (getValue h' c .array).1 nb.1 (reset h p .array) (getValue h' c .array).2 nb.2))
    generalize elemsH _ p _ _ _ = x at this
    dsimp only
    generalize elemsH _ (getValue h' c .array).1 _ _ _ = y at this ⊢
    match x, y, this with
    | .ok _ _, .ok _ _, _ => rfl
    | .err _ _, .err _ _, e => exact e
    | .panic, .panic, _ => trivial
    | .loop, .loop, _ => trivial
  refine Alike.ite (fun _ => ?_) (fun _ => ?_)
  · unfold objectH object2H
    refine Alike.lift _ (fun nb => Alike.ite (fun _ => rfl) (fun _ => ?_))
    cases nb.2 with
    | nil => trivial
    | cons k t =>
      refine Alike.ite (fun _ => rfl) (fun _ => ?_)
      have := membersH_alike E (ih (h.mem p).owner (childCache (getValue h' c .object).2 c (getValue h' c .object).1)) p (getValue h' c .object).1 nb.1 h (getValue h' c .object).2 (k :: t)
      generalize membersH _ _ p _ _ _ = x at this ⊢
      dsimp only
      generalize membersH _ _ (getValue h' c .object).1 _ _ _ = y at this ⊢
      match x, y, this with
      | .ok _ _, .ok _ _, _ => rfl
      | .err _ _, .err _ _, e => exact e
      | .panic, .panic, _ => trivial
      | .loop, .loop, _ => trivial
  refine Alike.ite (fun _ => rfl) (fun _ => ?_)
  refine Alike.ite (fun _ => Alike.lift _ (fun _ => rfl)) (fun _ => ?_)
  refine Alike.ite (fun _ => Alike.lift _ (fun _ => rfl)) (fun _ => ?_)
  refine Alike.ite (fun _ => Alike.lift _ (fun _ => rfl)) (fun _ => ?_)
  refine Alike.ite (fun _ => Alike.lift _ (fun _ => rfl)) (fun _ => ?_)
  refine Alike.ite (fun _ => Alike.lift _ (fun _ => rfl)) (fun _ => ?_)
  refine Alike.ite (fun _ => Alike.lift _ (fun _ => rfl)) (fun _ => ?_)
  refine Alike.ite (fun _ => Alike.lift _ (fun _ => rfl)) (fun _ => ?_)
  refine Alike.ite (fun _ => Alike.lift _ (fun _ => rfl)) (fun _ => ?_)
  refine Alike.ite (fun _ => Alike.lift _ (fun _ => rfl)) (fun _ => ?_)
  refine Alike.ite (fun _ => rfl) (fun _ => ?_)
  refine Alike.ite (fun _ => rfl) (fun _ => ?_)
  refine Alike.ite (fun _ => rfl) (fun _ => ?_)
  refine Alike.ite (fun _ => ?_) (fun _ => ?_)
  · unfold binH bin2H
    exact Alike.lift _ (fun nb => Alike.ite (fun _ => rfl) (fun _ => rfl))
  refine Alike.ite (fun _ => ?_) (fun _ => rfl)
  unfold extH ext2H
  refine Alike.lift _ (fun nb => Alike.ite (fun _ => rfl) (fun _ => Alike.lift _ (fun _ => ?_)))
  cases nb.2 with
  | nil => trivial
  | cons k t => exact Alike.ite (fun _ => Alike.lift _ (fun _ => rfl)) (fun _ => rfl)

/-! ## JSON -/

/-- All parsers of one level of fuel. -/
structure JAlike (E : Env) (fuel : Nat) : Prop where
  value : ∀ c c' h h' b, Alike Prod.snd Prod.snd (jvalueH E fuel c h b) (jvalueH E fuel c' h' b)
  obj : ∀ c c' h h' b, Alike Prod.snd Prod.snd (jobjH E fuel c h b) (jobjH E fuel c' h' b)
  objLoop : ∀ c c' r r' h h' b, Alike id id (jobjLoopH E fuel c r h b) (jobjLoopH E fuel c' r' h' b)
  arr : ∀ c c' h h' b, Alike Prod.snd Prod.snd (jarrH E fuel c h b) (jarrH E fuel c' h' b)
  arrLoop : ∀ c c' r r' h h' b, Alike id id (jarrLoopH E fuel c r h b) (jarrLoopH E fuel c' r' h' b)

theorem jalike (E : Env) : ∀ fuel, JAlike E fuel := by
  intro fuel
  induction fuel with
  | zero => refine ⟨?_, ?_, ?_, ?_, ?_⟩ <;> intros <;> simp [jvalueH, jobjH, jobjLoopH, jarrH, jarrLoopH, Alike]
  | succ fuel ih =>
    refine ⟨?_, ?_, ?_, ?_, ?_⟩
    · intro c c' h h' b
      rw [jvalueH, jvalueH]
      refine Alike.ite (fun _ => rfl) (fun _ => Alike.lift _ (fun b0 => ?_))
      refine Alike.ite (fun _ => Alike.lift _ (fun _ => ih.obj _ _ _ _ _)) (fun _ => ?_)
      refine Alike.ite (fun _ => Alike.lift _ (fun _ => ih.arr _ _ _ _ _)) (fun _ => ?_)
      refine Alike.ite (fun _ => Alike.lift _ (fun _ => Alike.lift _ (fun _ => rfl))) (fun _ => ?_)
      exact Alike.lift _ (fun _ => rfl)
    · intro c c' h h' b
      rw [jobjH, jobjH]
      dsimp only
      refine Alike.ite (fun _ => rfl) (fun _ => ?_)
      refine Alike.bind (f := id) (g := id) ?_ (fun _ _ _ _ e => e)
      exact Alike.lift _ (fun b0 => Alike.ite (fun _ => Alike.lift _ (fun _ => rfl)) (fun _ => ih.objLoop _ _ _ _ _ _ _))
    · intro c c' r r' h h' b
      rw [jobjLoopH, jobjLoopH]
      dsimp only
      refine Alike.lift _ (fun start => Alike.ite (fun _ => rfl) (fun _ => Alike.lift _ (fun _ => Alike.lift _ (fun kb => Alike.lift _ (fun _ => Alike.ite (fun _ => rfl) (fun _ => Alike.lift _ (fun _ => ?_)))))))
      refine (ih.value _ _ _ _ _).bind (fun x y _ _ e => ?_)
      rw [e]
      refine Alike.ite (fun _ => rfl) (fun _ => Alike.lift _ (fun _ => ?_))
      refine Alike.ite (fun _ => Alike.lift _ (fun _ => ih.objLoop _ _ _ _ _ _ _)) (fun _ => ?_)
      exact Alike.ite (fun _ => Alike.lift _ (fun _ => rfl)) (fun _ => rfl)
    · intro c c' h h' b
      rw [jarrH, jarrH]
      dsimp only
      refine Alike.ite (fun _ => rfl) (fun _ => ?_)
      refine Alike.bind (f := id) (g := id) ?_ (fun _ _ _ _ e => e)
      exact Alike.lift _ (fun b0 => Alike.ite (fun _ => Alike.lift _ (fun _ => rfl)) (fun _ => ih.arrLoop _ _ _ _ _ _ _))
    · intro c c' r r' h h' b
      rw [jarrLoopH, jarrLoopH]
      refine (ih.value _ _ _ _ _).bind (fun x y _ _ e => ?_)
      rw [e]
      refine Alike.ite (fun _ => rfl) (fun _ => Alike.lift _ (fun _ => ?_))
      refine Alike.ite (fun _ => Alike.lift _ (fun _ => ih.arrLoop _ _ _ _ _ _ _)) (fun _ => ?_)
      exact Alike.ite (fun _ => Alike.lift _ (fun _ => rfl)) (fun _ => rfl)

theorem jobj2LoopH_alike (E : Env) (c c' : Option CId) (r r' : Ptr) : ∀ fuel h h' b, Alike id id (jobj2LoopH E c r fuel h b) (jobjLoopH E fuel c' r' h' b)
  | 0, _, _, _ => by rw [jobj2LoopH, jobjLoopH]; trivial
  | fuel + 1, h, h', b => by
    rw [jobj2LoopH, jobjLoopH]
    dsimp only
    refine Alike.lift _ (fun start => Alike.ite (fun _ => rfl) (fun _ => Alike.lift _ (fun _ => Alike.lift _ (fun kb => Alike.lift _ (fun _ => Alike.ite (fun _ => rfl) (fun _ => Alike.lift _ (fun _ => ?_)))))))
    refine ((jalike E fuel).value _ _ _ _ _).bind (fun x y _ _ e => ?_)
    rw [e]
    refine Alike.ite (fun _ => rfl) (fun _ => Alike.lift _ (fun _ => ?_))
    refine Alike.ite (fun _ => Alike.lift _ (fun _ => jobj2LoopH_alike E c c' r r' fuel _ _ _)) (fun _ => ?_)
    exact Alike.ite (fun _ => Alike.lift _ (fun _ => rfl)) (fun _ => rfl)

theorem num2Loop_alike (E : Env) (p : Ptr) (h h' : Heap) (c : Option CId) (b : Bytes) : ∀ r i fl,
    Alike id Prod.snd (num2Loop E p h b i r) ((Out.lift (Json.numLoop E b i fl r) h').bind fun vt h => .ok ((place h c vt.1).1, vt.2) (place h c vt.1).2)
  | [], _, _ => rfl
  | ch :: r, i, fl => by
    rw [num2Loop, Json.numLoop]
    split
    · exact num2Loop_alike E p h h' c b r (i + 1) _
    · have lf : ∀ {ρ : Type} (x : Res ρ) (F : ρ → Heap → Out Bytes) (G : ρ → Res (Val × Bytes)),
          (∀ a, Alike id Prod.snd (F a h) ((Out.lift (G a) h').bind fun vt h => .ok ((place h c vt.1).1, vt.2) (place h c vt.1).2)) →
          Alike id Prod.snd ((Out.lift x h).bind F) ((Out.lift (x >>= G) h').bind fun vt h => .ok ((place h c vt.1).1, vt.2) (place h c vt.1).2) := by
        intro ρ x F G k
        cases x with
        | ok a => exact k a
        | err _ => rfl
        | panic => trivial
        | loop => trivial
      refine lf _ _ _ (fun word => ?_)
      split
      · refine lf _ _ _ (fun t => ?_)
        split
        · refine lf _ _ _ (fun xs => ?_)
          split
          · exact lf _ _ _ (fun _ => rfl)
          · split
            · exact lf _ _ _ (fun _ => rfl)
            · rfl
        · rfl
      · refine lf _ _ _ (fun ns => lf _ _ _ (fun tail => ?_))
        generalize (if fl = true then fl else ch == 46) = x
        generalize (ch == 46) = y
        cases x <;> cases y <;> rfl

/-- Into a value that exists. -/
theorem json2H_alike (E : Env) (fuel : Nat) (p : Ptr) (c : Option CId) (h h' : Heap) (b : Bytes) : Alike id Prod.snd (json2H E fuel p h b) (jvalueH E (fuel + 2) c h' b) := by
  unfold json2H
  rw [jvalueH]
  dsimp only
  refine Alike.ite (fun _ => rfl) (fun _ => Alike.lift _ (fun b0 => ?_))
  refine Alike.ite (fun _ => Alike.lift _ (fun b => ?_)) (fun h1 => ?_)
  · rw [jobjH]
    dsimp only
    refine Alike.ite (fun _ => rfl) (fun _ => ?_)
    refine Alike.right (g := id) ?_ (fun _ _ => rfl)
    exact Alike.lift _ (fun _ => Alike.ite (fun _ => Alike.lift _ (fun _ => rfl)) (fun _ => jobj2LoopH_alike E _ _ _ _ fuel _ _ _))
  refine Alike.ite (fun _ => Alike.lift _ (fun b => ?_)) (fun h2 => ?_)
  · rw [jarrH]
    dsimp only
    refine Alike.ite (fun _ => rfl) (fun _ => ?_)
    refine Alike.right (g := id) ?_ (fun _ _ => rfl)
    exact Alike.lift _ (fun _ => Alike.ite (fun _ => Alike.lift _ (fun _ => rfl)) (fun _ => (jalike E fuel).arrLoop _ _ _ _ _ _ _))
  refine Alike.ite (fun _ => Alike.lift _ (fun b => Alike.lift _ (fun st => ?_))) (fun h3 => ?_)
  · cases E.jsonTime st.1 <;> rfl
  by_cases h4 : (b0 == 116 || b0 == 102 || b0 == 110) = true
  · rw [if_pos h4]
    exact Alike.lift _ (fun _ => rfl)
  · rw [if_neg h4]
    simp only [Bool.or_eq_true, not_or] at h4
    obtain ⟨⟨h5, h6⟩, h7⟩ := h4
    unfold Json.parseLit
    rw [if_neg h5, if_neg h6, if_neg h7]
    exact num2Loop_alike E p h h' c b b 0 false

/-! ## BSON -/

/-- The decoder's `SetKeyCached` always finds a node. -/
theorem Solid.setKeyCached_ok {S : Ptr → Prop} {h : Heap} (s : Solid S h) (E : Env) {p : Ptr} (hp : S p) (name : Bytes) (t : VT) (c : Option CId) :
    ∃ r, Heap.setKeyCached E h p name t c = .ok r := by
  unfold Heap.setKeyCached
  split
  · exact ⟨_, rfl⟩
  · have s1 : Solid S (if (h.mem p).dt = .object then h else Heap.reset h p .object) := by
      split
      · exact s
      · exact s.reset p _
    generalize (if (h.mem p).dt = .object then h else Heap.reset h p .object) = h1 at *
    dsimp only
    have hlt : ∀ i, (objIndex E h1 p name).1 = some i → i < ((objIndex E h1 p name).2.mem p).kvs.length := by
      intro i hi
      unfold objIndex at hi ⊢
      dsimp only at hi ⊢
      rw [set_mem_same]
      dsimp only
      rw [indexByName_length]
      exact indexByName_lt E _ _ name hi
    have s2 : Solid S (objIndex E h1 p name).2 := by
      unfold objIndex
      refine s1.set (fun hS => ?_)
      have ok := s1.node hS
      exact ⟨by rw [indexByName_snd]; exact ok.kvs, ok.arr, ok.bin⟩
    generalize (objIndex E h1 p name).1 = i at *
    generalize (objIndex E h1 p name).2 = h2 at *
    cases i with
    | none => exact ⟨_, rfl⟩
    | some i =>
      dsimp only
      have hi := hlt i rfl
      rw [List.getElem?_eq_getElem hi]
      obtain ⟨q, e, -⟩ := s2.kvs p hp ((h2.mem p).kvs[i]).2 (List.mem_map.2 ⟨_, List.getElem_mem hi, rfl⟩)
      simp only [Option.bind_some, e]
      split
      · exact ⟨_, rfl⟩
      · split <;> exact ⟨_, rfl⟩

/-- The decoder may work here. -/
structure Works (S : Ptr → Prop) (c : Option CId) (h : Heap) : Prop where
  inv : Inv h
  solid : Solid S h
  cache : ∀ d, c = some d → d < h.nextC

theorem Works.next {S S1 : Ptr → Prop} {c : Option CId} {h h1 : Heap} (w : Works S c h) (st : Step anyCache h h1) (s : Solid S1 h1) : Works S1 c h1 :=
  ⟨st.inv, s, fun d e => Nat.lt_of_lt_of_le (w.cache d e) st.nextC⟩

/-- Two decoders go on. -/
theorem Alike.bindS {α β γ : Type} {g g' : β → γ} {S S' : Ptr → Prop} {c c' : Option CId} {h h' : Heap} {x y : Out α} (w : Works S c h) (w' : Works S' c' h') (l : Alike id id x y) (kx : HoldS S h x) (ky : HoldS S' h' y)
    {F G : α → Heap → Out β} (k : ∀ a h1 S1 h2 S2, Works S1 c h1 → (∀ x, S x → S1 x) → Works S2 c' h2 → (∀ x, S' x → S2 x) → Alike g g' (F a h1) (G a h2)) :
    Alike g g' (x.bind F) (y.bind G) := by
  match x, y, l, kx, ky with
  | .ok a h1, .ok b h2, e, ⟨st, S1, s1, hs⟩, ⟨st', S2, s2, hs'⟩ => cases e; exact k a h1 S1 h2 S2 (w.next st s1) hs (w'.next st' s2) hs'
  | .err _ _, .err _ _, e, _, _ => exact e
  | .panic, .panic, _, _, _ => trivial
  | .loop, .loop, _, _, _ => trivial

theorem bsonSimpleH_alike (E : Env) (hid : Bytes) (ty : UInt8) (b : Bytes) (q q' : Ptr) (h h' : Heap) : Alike id id (bsonSimpleH E hid ty b q h) (bsonSimpleH E hid ty b q' h') := by
  unfold bsonSimpleH
  refine Alike.ite (fun _ => Alike.lift _ (fun _ => rfl)) (fun _ => ?_)
  refine Alike.ite (fun _ => Alike.lift _ (fun _ => Alike.lift _ (fun _ => rfl))) (fun _ => ?_)
  refine Alike.ite (fun _ => ?_) (fun _ => ?_)
  · unfold bsonBinaryH
    refine Alike.lift _ (fun n => Alike.lift _ (fun b => Alike.lift _ (fun sub => ?_)))
    refine Alike.ite (fun _ => Alike.lift _ (fun b => Alike.lift _ (fun n => Alike.lift _ (fun b => ?_)))) (fun _ => Alike.lift _ (fun _ => rfl))
    exact Alike.ite (fun _ => rfl) (fun _ => Alike.lift _ (fun _ => rfl))
  refine Alike.ite (fun _ => Alike.lift _ (fun _ => rfl)) (fun _ => ?_)
  refine Alike.ite (fun _ => Alike.lift _ (fun _ => rfl)) (fun _ => ?_)
  refine Alike.ite (fun _ => Alike.lift _ (fun _ => rfl)) (fun _ => ?_)
  refine Alike.ite (fun _ => Alike.lift _ (fun _ => rfl)) (fun _ => ?_)
  refine Alike.ite (fun _ => Alike.lift _ (fun _ => rfl)) (fun _ => ?_)
  refine Alike.ite (fun _ => Alike.lift _ (fun _ => rfl)) (fun _ => ?_)
  exact Alike.ite (fun _ => Alike.lift _ (fun _ => rfl)) (fun _ => rfl)

/-- All parsers of one level of fuel. -/
structure BAlike (E : Env) (hid : Bytes) (c c' : Option CId) (fuel : Nat) : Prop where
  doc : ∀ S S' h h' b p p', Works S c h → Works S' c' h' → S p → S' p' → Alike id id (bsonDocH E hid c fuel b p h) (bsonDocH E hid c' fuel b p' h')
  docLoop : ∀ S S' h h' b l i p p', Works S c h → Works S' c' h' → S p → S' p' → Alike id id (bsonDocLoopH E hid c fuel b l i p h) (bsonDocLoopH E hid c' fuel b l i p' h')
  elem : ∀ S S' h h' ty b q q', Works S c h → Works S' c' h' → S q → 5 ≤ q → S' q' → 5 ≤ q' → Alike id id (bsonElemH E hid c fuel ty b q h) (bsonElemH E hid c' fuel ty b q' h')
  arr : ∀ S S' h h' b p p', Works S c h → Works S' c' h' → S p → 5 ≤ p → S' p' → 5 ≤ p' → Alike id id (bsonArrH E hid c fuel b p h) (bsonArrH E hid c' fuel b p' h')
  arrLoop : ∀ S S' h h' b l i p p', Works S c h → Works S' c' h' → S p → 5 ≤ p → S' p' → 5 ≤ p' → Alike id id (bsonArrLoopH E hid c fuel b l i p h) (bsonArrLoopH E hid c' fuel b l i p' h')

theorem balike (E : Env) (hid : Bytes) (c c' : Option CId) : ∀ fuel, BAlike E hid c c' fuel := by
  intro fuel
  induction fuel with
  | zero => refine ⟨?_, ?_, ?_, ?_, ?_⟩ <;> intros <;> simp [bsonDocH, bsonDocLoopH, bsonElemH, bsonArrH, bsonArrLoopH, Alike]
  | succ fuel ih =>
    have ke := fun {S : Ptr → Prop} {h : Heap} (w : Works S c h) ty b q (hq : S q) (h5 : 5 ≤ q) => (bkeeps E hid c fuel).elem S h ty b q w.inv w.solid w.cache hq h5
    have ke' := fun {S : Ptr → Prop} {h : Heap} (w : Works S c' h) ty b q (hq : S q) (h5 : 5 ≤ q) => (bkeeps E hid c' fuel).elem S h ty b q w.inv w.solid w.cache hq h5
    refine ⟨?_, ?_, ?_, ?_, ?_⟩
    · intro S S' h h' b p p' w w' hp hp'
      rw [bsonDocH, bsonDocH]
      refine Alike.ite (fun _ => rfl) (fun _ => Alike.lift _ (fun l => Alike.ite (fun _ => rfl) (fun _ => ?_)))
      exact (ih.docLoop S S' h h' b l 4 p p' w w' hp hp').bind (fun _ _ _ _ _ => rfl)
    · intro S S' h h' b l i p p' w w' hp hp'
      rw [bsonDocLoopH, bsonDocLoopH]
      refine Alike.ite (fun _ => Alike.lift _ (fun ty => ?_)) (fun _ => rfl)
      cases (b.drop (i + 1)).idxOf? 0 with
      | none => rfl
      | some k =>
        dsimp only
        obtain ⟨⟨q, h1⟩, e⟩ := w.solid.setKeyCached_ok E hp ((b.drop (i + 1)).take k) (targetType ty) c
        obtain ⟨⟨q', h1'⟩, e'⟩ := w'.solid.setKeyCached_ok E hp' ((b.drop (i + 1)).take k) (targetType ty) c'
        rw [e, e']
        simp only [Out.liftH, Out.bind_ok]
        obtain ⟨S1, f⟩ := w.solid.setKeyCached w.inv E hp _ _ c w.cache e
        obtain ⟨S1', f'⟩ := w'.solid.setKeyCached w'.inv E hp' _ _ c' w'.cache e'
        have w1 := w.next (w.inv.setKeyCached_st (X := anyCache) E p _ _ c w.cache (by simp) (by simp) e) f.solid
        have w1' := w'.next (w'.inv.setKeyCached_st (X := anyCache) E p' _ _ c' w'.cache (by simp) (by simp) e') f'.solid
        refine Alike.bindS w1 w1' (ih.elem _ _ _ _ ty _ _ _ w1 w1' f.mem f.ge f'.mem f'.ge) (ke w1 ty _ _ f.mem f.ge) (ke' w1' ty _ _ f'.mem f'.ge) (fun n h2 S2 h2' S2' w2 hs w2' hs' => ?_)
        exact Alike.ite (fun _ => rfl) (fun _ => ih.docLoop _ _ _ _ b l _ _ _ w2 w2' (hs p (f.le p hp)) (hs' p' (f'.le p' hp')))
    · intro S S' h h' ty b q q' w w' hq h5 hq' h5'
      rw [bsonElemH, bsonElemH]
      refine Alike.ite (fun _ => ih.arr _ _ _ _ b _ _ w w' hq h5 hq' h5') (fun _ => ?_)
      exact Alike.ite (fun _ => ih.doc _ _ _ _ b _ _ w w' hq hq') (fun _ => bsonSimpleH_alike E hid ty b q q' h h')
    · intro S S' h h' b p p' w w' hp h5 hp' h5'
      rw [bsonArrH, bsonArrH]
      refine Alike.lift _ (fun l => Alike.ite (fun _ => rfl) (fun _ => ?_))
      exact (ih.arrLoop S S' h h' b l 4 p p' w w' hp h5 hp' h5').bind (fun _ _ _ _ _ => rfl)
    · intro S S' h h' b l i p p' w w' hp h5 hp' h5'
      rw [bsonArrLoopH, bsonArrLoopH]
      refine Alike.ite (fun _ => Alike.lift _ (fun ty => ?_)) (fun _ => rfl)
      cases (b.drop (i + 1)).idxOf? 0 with
      | none => rfl
      | some k =>
        dsimp only
        generalize ((E.strToInt ((b.drop (i + 1)).take k)).map BitVec.toInt).getD (-1) = idx
        refine Alike.ite (fun _ => rfl) (fun _ => ?_)
        obtain ⟨S1, f⟩ := w.solid.setIndexCached w.inv hp h5 idx (targetType ty) c w.cache
        obtain ⟨S1', f'⟩ := w'.solid.setIndexCached w'.inv hp' h5' idx (targetType ty) c' w'.cache
        have w1 := w.next (w.inv.setIndexCached_st (X := anyCache) p idx (targetType ty) c w.cache (by simp)) f.solid
        have w1' := w'.next (w'.inv.setIndexCached_st (X := anyCache) p' idx (targetType ty) c' w'.cache (by simp)) f'.solid
        refine Alike.bindS w1 w1' (ih.elem _ _ _ _ ty _ _ _ w1 w1' f.mem f.ge f'.mem f'.ge) (ke w1 ty _ _ f.mem f.ge) (ke' w1' ty _ _ f'.mem f'.ge) (fun n h2 S2 h2' S2' w2 hs w2' hs' => ?_)
        exact Alike.ite (fun _ => rfl) (fun _ => ih.arrLoop _ _ _ _ b l _ _ _ w2 w2' (hs p (f.le p hp)) h5 (hs' p' (f'.le p' hp')) h5')

end Dxs.Heap
