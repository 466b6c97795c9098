import Verif.Heap.Clone
import Verif.Heap.Force

/-!
# Equal on trees
-/

namespace Dxs.Heap

/-- The number of a numeric value as float64 (`Double`, dxvalue.go:906-922). -/
def dblOf (E : Env) : Val → Option F64
  | .int _ c => some (E.i64to64 c)
  | .float c => some (E.f32to64 (lo32 c))
  | .double c => some c
  | _ => none

/-- The key after `UnEscapestrs`. -/
def keyOf (E : Env) (ku : Bool) (k : Bytes) : Bytes := if ku then k else E.unesc k

/-- Comparing numbers of different types. -/
def eqNum (E : Env) (v w : Val) : Res Bool :=
  match dblOf E v, dblOf E w with
  | some x, some y => .ok (E.f64eq x y)
  | _, _ => .ok false

mutual
/-- `Equal` (dxvalue.go:478-529) as a function of two trees. -/
def eqVal (E : Env) : Val → Val → Res Bool
  | .nil, w => .ok (match w with | .nil => true | _ => false)
  | .obj ku kvs, w =>
    match w with
    | .obj ku' kvs' => if kvs.length ≠ kvs'.length then .ok false else eqValM E ku ku' kvs kvs'
    | _ => .ok false
  | .arr xs, w =>
    match w with
    | .arr ys => eqValL E xs ys
    | _ => .ok false
  | .str a, w =>
    match w with
    | .str b => .ok (a == b)
    | .raw b => .ok (E.equalFold a (E.unesc b))
    | _ => .ok false
  | .raw a, w =>
    match w with
    | .str b => .ok (E.equalFold (E.unesc a) b)
    | .raw b => .ok (a == b)
    | _ => .ok false
  | .int e a, w =>
    match w with
    | .int _ b => .ok (a == b)
    | _ => eqNum E (.int e a) w
  | .float a, w =>
    match w with
    | .float b => .ok (a == b)
    | _ => eqNum E (.float a) w
  | .double a, w =>
    match w with
    | .double b => .ok (a == b)
    | _ => eqNum E (.double a) w
  | .dateTime a, w => .ok (match w with | .dateTime b => a == b | _ => false)
  | .bin _ a, w => .ok (match w with | .bin _ b => a == b | _ => false)
  | .exbin _ a, w => .ok (match w with | .exbin _ b => a == b | _ => false)
  | .null, w => .ok (match w with | .null => true | _ => false)
  | .tru, w => .ok (match w with | .tru => true | _ => false)
  | .fls, w => .ok (match w with | .fls => true | _ => false)
  | .nan, w => .ok (match w with | .nan => true | _ => false)
  | .inf, w => .ok (match w with | .inf => true | _ => false)
/-- The members. -/
def eqValM (E : Env) (ku ku' : Bool) : List (Bytes × Val) → List (Bytes × Val) → Res Bool
  | (k, v) :: kvs, (k', w) :: kvs' =>
    if keyOf E ku k ≠ keyOf E ku' k' then .ok false
    else
      match eqVal E v w with
      | .ok true => eqValM E ku ku' kvs kvs'
      | r => r
  | _, _ => .ok true
/-- The elements. -/
def eqValL (E : Env) : List Val → List Val → Res Bool
  | [], _ => .ok true
  | _ :: _, [] => .panic
  | v :: xs, w :: ys =>
    match eqVal E v w with
    | .ok true => eqValL E xs ys
    | r => r
end

mutual
/-- `w` is `v`, except that some strings and keys have been unescaped. -/
def Softer (E : Env) : Val → Val → Prop
  | .raw s, w => w = .raw s ∨ w = .str (E.unesc s)
  | .obj ku kvs, w => ∃ kvs', SofterM E kvs kvs' ∧ (w = .obj ku kvs' ∨ w = .obj true (unescKeys E ku kvs'))
  | .arr xs, w => ∃ xs', SofterL E xs xs' ∧ w = .arr xs'
  | v, w => w = v
/-- The members. -/
def SofterM (E : Env) : List (Bytes × Val) → List (Bytes × Val) → Prop
  | [], kvs' => kvs' = []
  | (k, v) :: kvs, kvs' => ∃ w ws, kvs' = (k, w) :: ws ∧ Softer E v w ∧ SofterM E kvs ws
/-- The elements. -/
def SofterL (E : Env) : List Val → List Val → Prop
  | [], xs' => xs' = []
  | v :: xs, xs' => ∃ w ws, xs' = w :: ws ∧ Softer E v w ∧ SofterL E xs ws
end

mutual
theorem Softer.refl (E : Env) : ∀ v, Softer E v v
  | .raw s => Or.inl rfl
  | .obj ku kvs => ⟨kvs, SofterM.refl E kvs, Or.inl rfl⟩
  | .arr xs => ⟨xs, SofterL.refl E xs, rfl⟩
  | .nil | .str _ | .int _ _ | .float _ | .double _ | .dateTime _ | .bin _ _ | .exbin _ _ | .null | .tru | .fls | .nan | .inf => rfl
theorem SofterM.refl (E : Env) : ∀ kvs, SofterM E kvs kvs
  | [] => rfl
  | (k, v) :: kvs => ⟨v, kvs, rfl, Softer.refl E v, SofterM.refl E kvs⟩
theorem SofterL.refl (E : Env) : ∀ xs, SofterL E xs xs
  | [] => rfl
  | v :: xs => ⟨v, xs, rfl, Softer.refl E v, SofterL.refl E xs⟩
end

mutual
/-- What `Equal` (dxvalue.go:478-529) leaves of two trees: the names of two objects of the same size are unescaped (500-501), a raw string compared with a string is
(`String`, dxvalue.go:707-758); it stops at the first difference. -/
def compared (E : Env) : Val → Val → Val × Val
  | .obj ku kvs, w =>
    match w with
    | .obj ku' kvs' =>
      if kvs.length ≠ kvs'.length then (.obj ku kvs, .obj ku' kvs')
      else (.obj true (unescKeys E ku (comparedM E ku ku' kvs kvs').1), .obj true (unescKeys E ku' (comparedM E ku ku' kvs kvs').2))
    | w => (.obj ku kvs, w)
  | .arr xs, w =>
    match w with
    | .arr ys => (.arr (comparedL E xs ys).1, .arr (comparedL E xs ys).2)
    | w => (.arr xs, w)
  | .str a, w =>
    match w with
    | .raw b => (.str a, .str (E.unesc b))
    | w => (.str a, w)
  | .raw a, w =>
    match w with
    | .str b => (.str (E.unesc a), .str b)
    | w => (.raw a, w)
  | v, w => (v, w)
/-- The members. -/
def comparedM (E : Env) (ku ku' : Bool) : List (Bytes × Val) → List (Bytes × Val) → List (Bytes × Val) × List (Bytes × Val)
  | (k, v) :: kvs, (k', w) :: kvs' =>
    if keyOf E ku k ≠ keyOf E ku' k' then ((k, v) :: kvs, (k', w) :: kvs')
    else if eqVal E v w = .ok true then ((k, (compared E v w).1) :: (comparedM E ku ku' kvs kvs').1, (k', (compared E v w).2) :: (comparedM E ku ku' kvs kvs').2)
    else ((k, (compared E v w).1) :: kvs, (k', (compared E v w).2) :: kvs')
  | kvs, kvs' => (kvs, kvs')
/-- The elements. -/
def comparedL (E : Env) : List Val → List Val → List Val × List Val
  | v :: xs, w :: ys =>
    if eqVal E v w = .ok true then ((compared E v w).1 :: (comparedL E xs ys).1, (compared E v w).2 :: (comparedL E xs ys).2)
    else ((compared E v w).1 :: xs, (compared E v w).2 :: ys)
  | xs, ys => (xs, ys)
end

mutual
/-- Only escapes are undone. -/
theorem compared_softer (E : Env) : ∀ v w, Softer E v (compared E v w).1 ∧ Softer E w (compared E v w).2
  | .obj ku kvs, w => by
    cases w with
    | obj ku' kvs' =>
      simp only [compared]
      split
      · exact ⟨Softer.refl E _, Softer.refl E _⟩
      · obtain ⟨h1, h2⟩ := comparedM_softer E ku ku' kvs kvs'
        exact ⟨⟨_, h1, Or.inr rfl⟩, ⟨_, h2, Or.inr rfl⟩⟩
    | _ => exact ⟨Softer.refl E _, Softer.refl E _⟩
  | .arr xs, w => by
    cases w with
    | arr ys =>
      obtain ⟨h1, h2⟩ := comparedL_softer E xs ys
      exact ⟨⟨_, h1, rfl⟩, ⟨_, h2, rfl⟩⟩
    | _ => exact ⟨Softer.refl E _, Softer.refl E _⟩
  | .str a, w => by
    cases w with
    | raw b => exact ⟨rfl, Or.inr rfl⟩
    | _ => exact ⟨Softer.refl E _, Softer.refl E _⟩
  | .raw a, w => by
    cases w with
    | str b => exact ⟨Or.inr rfl, rfl⟩
    | _ => exact ⟨Softer.refl E _, Softer.refl E _⟩
  | .nil, w | .int _ _, w | .float _, w | .double _, w | .dateTime _, w | .bin _ _, w | .exbin _ _, w | .null, w | .tru, w | .fls, w | .nan, w | .inf, w =>
    ⟨Softer.refl E _, Softer.refl E w⟩
theorem comparedM_softer (E : Env) (ku ku' : Bool) : ∀ kvs kvs', SofterM E kvs (comparedM E ku ku' kvs kvs').1 ∧ SofterM E kvs' (comparedM E ku ku' kvs kvs').2
  | [], kvs' => ⟨rfl, SofterM.refl E kvs'⟩
  | (k, v) :: kvs, [] => ⟨SofterM.refl E _, rfl⟩
  | (k, v) :: kvs, (k', w) :: kvs' => by
    obtain ⟨h1, h2⟩ := compared_softer E v w
    obtain ⟨h3, h4⟩ := comparedM_softer E ku ku' kvs kvs'
    simp only [comparedM]
    split
    · exact ⟨SofterM.refl E _, SofterM.refl E _⟩
    · split
      · exact ⟨⟨_, _, rfl, h1, h3⟩, ⟨_, _, rfl, h2, h4⟩⟩
      · exact ⟨⟨_, _, rfl, h1, SofterM.refl E _⟩, ⟨_, _, rfl, h2, SofterM.refl E _⟩⟩
theorem comparedL_softer (E : Env) : ∀ xs ys, SofterL E xs (comparedL E xs ys).1 ∧ SofterL E ys (comparedL E xs ys).2
  | [], ys => ⟨rfl, SofterL.refl E ys⟩
  | v :: xs, [] => ⟨SofterL.refl E _, rfl⟩
  | v :: xs, w :: ys => by
    obtain ⟨h1, h2⟩ := compared_softer E v w
    obtain ⟨h3, h4⟩ := comparedL_softer E xs ys
    simp only [comparedL]
    split
    · exact ⟨⟨_, _, rfl, h1, h3⟩, ⟨_, _, rfl, h2, h4⟩⟩
    · exact ⟨⟨_, _, rfl, h1, SofterL.refl E _⟩, ⟨_, _, rfl, h2, SofterL.refl E _⟩⟩
end

/-! ## What a leaf looks like in memory -/

section
variable {h : Heap} {p : Ptr} {F : List Ptr}

theorem rep_leaf_node (I : Inv h) {v : Val} (hr : Rep h.mem v (some p) F) (hl : Val.isLeaf v = true)
    (hd : v.vt ≠ .null ∧ v.vt ≠ .true ∧ v.vt ≠ .false ∧ v.vt ≠ .nan ∧ v.vt ≠ .inf) : 5 ≤ p ∧ leafOf (h.mem p) = some v ∧ F = [p] := by
  obtain ⟨p', e, hF, hlf⟩ := (rep_leaf hl _ _).1 hr
  cases e
  have h5 : 5 ≤ p := leaf_ge I (rep_dt hr) hd.1 hd.2.1 hd.2.2.1 hd.2.2.2.1 hd.2.2.2.2
  rw [view_ge h5] at hlf
  refine ⟨h5, hlf, ?_⟩
  rw [hF, foot]; simp; omega

theorem rep_str (I : Inv h) {s : Bytes} (hr : Rep h.mem (.str s) (some p) F) : 5 ≤ p ∧ (h.mem p).dt = .string ∧ (h.mem p).str = s ∧ F = [p] := by
  obtain ⟨h5, hl, hF⟩ := rep_leaf_node I hr rfl (by simp [Val.vt])
  have hd : (h.mem p).dt = .string := rep_dt hr
  simp [leafOf, hd] at hl
  exact ⟨h5, hd, hl, hF⟩
theorem rep_raw (I : Inv h) {s : Bytes} (hr : Rep h.mem (.raw s) (some p) F) : 5 ≤ p ∧ (h.mem p).dt = .rawString ∧ (h.mem p).str = s ∧ F = [p] := by
  obtain ⟨h5, hl, hF⟩ := rep_leaf_node I hr rfl (by simp [Val.vt])
  have hd : (h.mem p).dt = .rawString := rep_dt hr
  simp [leafOf, hd] at hl
  exact ⟨h5, hd, hl, hF⟩
theorem rep_int (I : Inv h) {e : UInt8} {c : BitVec 64} (hr : Rep h.mem (.int e c) (some p) F) : (h.mem p).dt = .int ∧ (h.mem p).cell = c := by
  obtain ⟨h5, hl, hF⟩ := rep_leaf_node I hr rfl (by simp [Val.vt])
  have hd : (h.mem p).dt = .int := rep_dt hr
  simp [leafOf, hd] at hl
  exact ⟨hd, hl.2⟩
theorem rep_float (I : Inv h) {c : BitVec 64} (hr : Rep h.mem (.float c) (some p) F) : (h.mem p).dt = .float ∧ (h.mem p).cell = c := by
  obtain ⟨h5, hl, hF⟩ := rep_leaf_node I hr rfl (by simp [Val.vt])
  have hd : (h.mem p).dt = .float := rep_dt hr
  simp [leafOf, hd] at hl
  exact ⟨hd, hl⟩
theorem rep_double (I : Inv h) {c : BitVec 64} (hr : Rep h.mem (.double c) (some p) F) : (h.mem p).dt = .double ∧ (h.mem p).cell = c := by
  obtain ⟨h5, hl, hF⟩ := rep_leaf_node I hr rfl (by simp [Val.vt])
  have hd : (h.mem p).dt = .double := rep_dt hr
  simp [leafOf, hd] at hl
  exact ⟨hd, hl⟩
theorem rep_dateTime (I : Inv h) {c : BitVec 64} (hr : Rep h.mem (.dateTime c) (some p) F) : (h.mem p).dt = .dateTime ∧ (h.mem p).cell = c := by
  obtain ⟨h5, hl, hF⟩ := rep_leaf_node I hr rfl (by simp [Val.vt])
  have hd : (h.mem p).dt = .dateTime := rep_dt hr
  simp [leafOf, hd] at hl
  exact ⟨hd, hl⟩
theorem rep_bin (I : Inv h) {e : UInt8} {b : Bytes} (hr : Rep h.mem (.bin e b) (some p) F) : (h.mem p).dt = .binary ∧ (h.mem p).bin = b := by
  obtain ⟨h5, hl, hF⟩ := rep_leaf_node I hr rfl (by simp [Val.vt])
  have hd : (h.mem p).dt = .binary := rep_dt hr
  simp [leafOf, hd] at hl
  exact ⟨hd, hl.2⟩
theorem rep_exbin (I : Inv h) {e : UInt8} {b : Bytes} (hr : Rep h.mem (.exbin e b) (some p) F) : (h.mem p).dt = .exBinary ∧ (h.mem p).bin = b := by
  obtain ⟨h5, hl, hF⟩ := rep_leaf_node I hr rfl (by simp [Val.vt])
  have hd : (h.mem p).dt = .exBinary := rep_dt hr
  simp [leafOf, hd] at hl
  exact ⟨hd, hl.2⟩

end

/-- What is true after comparing two disjoint trees. -/
structure EqPost (E : Env) (h : Heap) (a b : Option Ptr) (v w : Val) (F G : List Ptr) (h' : Heap) : Prop where
  frame : Frame h (F ++ G) h'
  left : Rep h'.mem (compared E v w).1 a F
  right : Rep h'.mem (compared E v w).2 b G

/-- The outcome. -/
def EqualOk (E : Env) (f : Nat) (h : Heap) (a b : Option Ptr) (v w : Val) (F G : List Ptr) : Res (Bool × Heap) → Prop
  | .ok (x, h') => eqVal E v w = .ok x ∧ EqPost E h a b v w F G h'
  | .err _ => False
  | .panic => eqVal E v w = .panic
  | .loop => f < height v

/-- What is true after comparing lists. -/
structure EqPostL (E : Env) (h : Heap) (ps qs : List (Option Ptr)) (xs ys : List Val) (F G : List Ptr) (h' : Heap) : Prop where
  frame : Frame h (F ++ G) h'
  left : RepL h'.mem (comparedL E xs ys).1 ps F
  right : RepL h'.mem (comparedL E xs ys).2 qs G

/-- The outcome for lists. -/
def EqualOkL (E : Env) (f : Nat) (h : Heap) (ps qs : List (Option Ptr)) (xs ys : List Val) (F G : List Ptr) : Res (Bool × Heap) → Prop
  | .ok (x, h') => eqValL E xs ys = .ok x ∧ EqPostL E h ps qs xs ys F G h'
  | .err _ => False
  | .panic => eqValL E xs ys = .panic
  | .loop => f < heightL xs

/-- The condition on two lists of trees. -/
structure TwoL (h : Heap) (ps qs : List (Option Ptr)) (xs ys : List Val) (F G : List Ptr) : Prop where
  inv : Inv h
  left : RepL h.mem xs ps F
  right : RepL h.mem ys qs G
  nodup : (F ++ G).Nodup
  live : ∀ q ∈ F ++ G, ¬Avail h q

theorem Frame.rep_keep {h h' : Heap} {F G : List Ptr} {a : Option Ptr} {v : Val} (I : Inv h) (f : Frame h F h') (hr : Rep h.mem v a G)
    (hl : ∀ q ∈ G, ¬Avail h q) (hd : ∀ q ∈ G, q ∉ F) : Rep h'.mem v a G :=
  rep_frame hr ⟨fun q hq => f.mem q (rep_ge hr q hq) (hd q hq) (hl q hq), fun _ hp => I.dt_const f.inv hp⟩

theorem Frame.widen {h h' : Heap} {F G : List Ptr} (f : Frame h F h') (hs : ∀ q ∈ F, q ∈ G) : Frame h G h' := f.mono hs

theorem Frame.then {h h1 h2 : Heap} {F : List Ptr} (a : Frame h F h1) (b : Frame h1 F h2) : Frame h F h2 :=
  ⟨b.inv, fun q hq => a.avail q (b.avail q hq), fun q h5 hq hl => by rw [b.mem q h5 hq (a.not_avail hl), a.mem q h5 hq hl]⟩

theorem equalL_spec {E : Env} {f : Nat} {rec : Heap → Option Ptr → Option Ptr → Res (Bool × Heap)}
    (hrec : ∀ h a b v w F G, Inv h → Rep h.mem v a F → Rep h.mem w b G → (F ++ G).Nodup → (∀ q ∈ F ++ G, ¬Avail h q) →
      EqualOk E f h a b v w F G (rec h a b)) :
    ∀ (xs ys : List Val) (ps qs : List (Option Ptr)) (h : Heap) (F G : List Ptr), TwoL h ps qs xs ys F G →
      EqualOkL E f h ps qs xs ys F G (equalL rec h ps qs)
  | [], ys, ps, qs, h, F, G, t => by
    obtain ⟨rfl, rfl⟩ := t.left
    exact ⟨by simp [eqValL], Frame.refl t.inv _, t.left, t.right⟩
  | x :: xs, [], ps, qs, h, F, G, t => by
    obtain ⟨p, ps, F1, F2, rfl, rfl, h1, h2⟩ := t.left
    obtain ⟨rfl, rfl⟩ := t.right
    simp [equalL, EqualOkL, eqValL]
  | x :: xs, y :: ys, ps, qs, h, F, G, t => by
    obtain ⟨p, ps, F1, F2, rfl, rfl, hF1, hF2⟩ := t.left
    obtain ⟨q, qs, G1, G2, rfl, rfl, hG1, hG2⟩ := t.right
    have hnd := t.nodup
    have hlv := t.live
    simp only [List.mem_append] at hlv
    have hdis : (F1 ++ G1).Nodup ∧ (F2 ++ G2).Nodup ∧ ∀ r ∈ F2 ++ G2, r ∉ F1 ++ G1 := by
      clear hrec t hlv
      simp only [List.nodup_append, List.mem_append] at hnd ⊢
      grind
    obtain ⟨hn1, hn2, hd⟩ := hdis
    have ok := hrec h p q x y F1 G1 t.inv hF1 hG1 hn1 (fun r hr => hlv r (by simp only [List.mem_append] at hr; grind))
    rw [equalL]
    generalize rec h p q = res at ok
    match res with
    | .err e => exact ok.elim
    | .panic => simp only [EqualOk] at ok; simp [Res.bind_panic, EqualOkL, eqValL, ok]
    | .loop => simp only [EqualOk] at ok; simp only [Res.bind_loop, EqualOkL, heightL]; omega
    | .ok (b, h1) =>
      obtain ⟨eb, fr, hx', hy'⟩ := ok
      simp only [Res.bind_ok]
      have hl2 : ∀ r ∈ F2 ++ G2, ¬Avail h r := fun r hr => hlv r (by simp only [List.mem_append] at hr; grind)
      have kF2 := repL_frame_keep t.inv fr hF2 (fun r hr => hl2 r (by simp [hr])) (fun r hr => hd r (by simp [hr]))
      have kG2 := repL_frame_keep t.inv fr hG2 (fun r hr => hl2 r (by simp [hr])) (fun r hr => hd r (by simp [hr]))
      have fr1 : Frame h (F1 ++ F2 ++ (G1 ++ G2)) h1 := fr.mono (by simp only [List.mem_append]; grind)
      cases b with
      | false =>
        simp only [Bool.false_eq_true, if_false]
        have en : ¬eqVal E x y = .ok true := by rw [eb]; simp
        exact ⟨by simp [eqValL, eb], fr1, by simp only [comparedL, if_neg en]; exact ⟨p, ps, F1, F2, rfl, rfl, hx', kF2⟩,
          by simp only [comparedL, if_neg en]; exact ⟨q, qs, G1, G2, rfl, rfl, hy', kG2⟩⟩
      | true =>
        simp only [if_true]
        have ih := equalL_spec hrec xs ys ps qs h1 F2 G2 ⟨fr.inv, kF2, kG2, hn2, fun r hr => fr.not_avail (hl2 r hr)⟩
        generalize equalL rec h1 ps qs = res2 at ih
        match res2 with
        | .err e => exact ih.elim
        | .panic => simp only [EqualOkL] at ih; simp [EqualOkL, eqValL, eb, ih]
        | .loop => simp only [EqualOkL] at ih; simp only [EqualOkL, heightL]; omega
        | .ok (b2, h2) =>
          obtain ⟨eb2, fr2, hxs', hys'⟩ := ih
          have hl1 : ∀ r ∈ F1 ++ G1, ¬Avail h1 r := fun r hr => fr.not_avail (hlv r (by simp only [List.mem_append] at hr; grind))
          have hd1 : ∀ r ∈ F1 ++ G1, r ∉ F2 ++ G2 := fun r h1 h2 => hd r h2 h1
          refine ⟨by simp [eqValL, eb, eb2], fr1.then (fr2.mono (by simp only [List.mem_append]; grind)),
            by simp only [comparedL, if_pos eb]; exact ⟨p, ps, F1, F2, rfl, rfl, fr2.rep_keep fr.inv hx' (fun r hr => hl1 r (by simp [hr])) (fun r hr => hd1 r (by simp [hr])), hxs'⟩,
            by simp only [comparedL, if_pos eb]; exact ⟨q, qs, G1, G2, rfl, rfl, fr2.rep_keep fr.inv hy' (fun r hr => hl1 r (by simp [hr])) (fun r hr => hd1 r (by simp [hr])), hys'⟩⟩

/-- What is true after comparing members. -/
structure EqPostM (E : Env) (h : Heap) (ps qs : List (Bytes × Option Ptr)) (xs ys : List (Bytes × Val)) (F G : List Ptr) (h' : Heap) : Prop where
  frame : Frame h (F ++ G) h'
  left : RepM h'.mem (comparedM E true true xs ys).1 ps F
  right : RepM h'.mem (comparedM E true true xs ys).2 qs G

/-- The outcome for members. -/
def EqualOkM (E : Env) (f : Nat) (h : Heap) (ps qs : List (Bytes × Option Ptr)) (xs ys : List (Bytes × Val)) (F G : List Ptr) : Res (Bool × Heap) → Prop
  | .ok (x, h') => eqValM E true true xs ys = .ok x ∧ EqPostM E h ps qs xs ys F G h'
  | .err _ => False
  | .panic => eqValM E true true xs ys = .panic
  | .loop => f < heightM xs

/-- The condition on two lists of members. -/
structure TwoM (h : Heap) (ps qs : List (Bytes × Option Ptr)) (xs ys : List (Bytes × Val)) (F G : List Ptr) : Prop where
  inv : Inv h
  left : RepM h.mem xs ps F
  right : RepM h.mem ys qs G
  nodup : (F ++ G).Nodup
  live : ∀ q ∈ F ++ G, ¬Avail h q

theorem equalM_spec {E : Env} {f : Nat} {rec : Heap → Option Ptr → Option Ptr → Res (Bool × Heap)}
    (hrec : ∀ h a b v w F G, Inv h → Rep h.mem v a F → Rep h.mem w b G → (F ++ G).Nodup → (∀ q ∈ F ++ G, ¬Avail h q) →
      EqualOk E f h a b v w F G (rec h a b)) :
    ∀ (xs ys : List (Bytes × Val)) (ps qs : List (Bytes × Option Ptr)) (h : Heap) (F G : List Ptr), TwoM h ps qs xs ys F G →
      EqualOkM E f h ps qs xs ys F G (equalM rec h ps qs)
  | [], ys, ps, qs, h, F, G, t => by
    obtain ⟨rfl, rfl⟩ := t.left
    exact ⟨by simp [eqValM], Frame.refl t.inv _, t.left, t.right⟩
  | x :: xs, [], ps, qs, h, F, G, t => by
    have hr := t.right
    obtain ⟨p, ps, F1, F2, rfl, rfl, h1, h2⟩ := t.left
    obtain ⟨rfl, rfl⟩ := t.right
    exact ⟨by simp [eqValM], Frame.refl t.inv _, by rw [comparedM]; exact t.left; simp, by rw [comparedM]; exact hr; simp⟩
  | (k, x) :: xs, (k', y) :: ys, ps, qs, h, F, G, t => by
    have t0 := t
    obtain ⟨p, ps, F1, F2, rfl, rfl, hF1, hF2⟩ := t.left
    obtain ⟨q, qs, G1, G2, rfl, rfl, hG1, hG2⟩ := t.right
    dsimp only at hF1 hF2 hG1 hG2 t t0 ⊢
    have hnd := t.nodup
    have hlv := t.live
    simp only [List.mem_append] at hlv
    have hdis : (F1 ++ G1).Nodup ∧ (F2 ++ G2).Nodup ∧ ∀ r ∈ F2 ++ G2, r ∉ F1 ++ G1 := by
      clear hrec t t0 hlv
      simp only [List.nodup_append, List.mem_append] at hnd ⊢
      grind
    obtain ⟨hn1, hn2, hd⟩ := hdis
    have ok := hrec h p q x y F1 G1 t.inv hF1 hG1 hn1 (fun r hr => hlv r (by simp only [List.mem_append] at hr; grind))
    rw [equalM]
    by_cases hk : k = k'
    case neg =>
      simp only [ne_eq, hk, not_false_eq_true, if_true]
      have hkk : keyOf E true k ≠ keyOf E true k' := hk
      exact ⟨by simp [eqValM, keyOf, hk], Frame.refl t.inv _, by simp only [comparedM, if_pos hkk]; exact t0.left, by simp only [comparedM, if_pos hkk]; exact t0.right⟩
    subst hk
    simp only [ne_eq, not_true_eq_false, if_false]
    generalize rec h p q = res at ok
    match res with
    | .err e => exact ok.elim
    | .panic => simp only [EqualOk] at ok; simp [Res.bind_panic, EqualOkM, eqValM, ok]
    | .loop => simp only [EqualOk] at ok; simp only [Res.bind_loop, EqualOkM, heightM]; omega
    | .ok (b, h1) =>
      obtain ⟨eb, fr, hx', hy'⟩ := ok
      simp only [Res.bind_ok]
      have hl2 : ∀ r ∈ F2 ++ G2, ¬Avail h r := fun r hr => hlv r (by simp only [List.mem_append] at hr; grind)
      have kF2 := repM_frame_keep t.inv fr hF2 (fun r hr => hl2 r (by simp [hr])) (fun r hr => hd r (by simp [hr]))
      have kG2 := repM_frame_keep t.inv fr hG2 (fun r hr => hl2 r (by simp [hr])) (fun r hr => hd r (by simp [hr]))
      have fr1 : Frame h (F1 ++ F2 ++ (G1 ++ G2)) h1 := fr.mono (by simp only [List.mem_append]; grind)
      cases b with
      | false =>
        simp only [Bool.false_eq_true, if_false]
        have en : ¬eqVal E x y = .ok true := by rw [eb]; simp
        exact ⟨by simp [eqValM, eb], fr1, by simp only [comparedM, ne_eq, not_true_eq_false, if_false, if_neg en]; exact ⟨p, ps, F1, F2, rfl, rfl, hx', kF2⟩,
          by simp only [comparedM, ne_eq, not_true_eq_false, if_false, if_neg en]; exact ⟨q, qs, G1, G2, rfl, rfl, hy', kG2⟩⟩
      | true =>
        simp only [if_true]
        have ih := equalM_spec hrec xs ys ps qs h1 F2 G2 ⟨fr.inv, kF2, kG2, hn2, fun r hr => fr.not_avail (hl2 r hr)⟩
        generalize equalM rec h1 ps qs = res2 at ih
        match res2 with
        | .err e => exact ih.elim
        | .panic => simp only [EqualOkM] at ih; simp [EqualOkM, eqValM, eb, ih]
        | .loop => simp only [EqualOkM] at ih; simp only [EqualOkM, heightM]; omega
        | .ok (b2, h2) =>
          obtain ⟨eb2, fr2, hxs', hys'⟩ := ih
          have hl1 : ∀ r ∈ F1 ++ G1, ¬Avail h1 r := fun r hr => fr.not_avail (hlv r (by simp only [List.mem_append] at hr; grind))
          have hd1 : ∀ r ∈ F1 ++ G1, r ∉ F2 ++ G2 := fun r h1 h2 => hd r h2 h1
          refine ⟨by simp [eqValM, eb, eb2], fr1.then (fr2.mono (by simp only [List.mem_append]; grind)),
            by simp only [comparedM, ne_eq, not_true_eq_false, if_false, if_pos eb]; exact ⟨p, ps, F1, F2, rfl, rfl, fr2.rep_keep fr.inv hx' (fun r hr => hl1 r (by simp [hr])) (fun r hr => hd1 r (by simp [hr])), hxs'⟩,
            by simp only [comparedM, ne_eq, not_true_eq_false, if_false, if_pos eb]; exact ⟨q, qs, G1, G2, rfl, rfl, fr2.rep_keep fr.inv hy' (fun r hr => hl1 r (by simp [hr])) (fun r hr => hd1 r (by simp [hr])), hys'⟩⟩

theorem eqValM_unesc (E : Env) (ku ku' : Bool) : ∀ xs ys, eqValM E true true (unescKeys E ku xs) (unescKeys E ku' ys) = eqValM E ku ku' xs ys := by
  have key : ∀ (ku : Bool) (k : Bytes) (v : Val) xs, unescKeys E ku ((k, v) :: xs) = (keyOf E ku k, v) :: unescKeys E ku xs := by
    intro ku k v xs; cases ku <;> simp [unescKeys, keyOf]
  have nil : ∀ (ku : Bool), unescKeys E ku ([] : List (Bytes × Val)) = [] := by intro ku; cases ku <;> rfl
  intro xs
  induction xs with
  | nil => intro ys; rw [nil]; simp [eqValM]
  | cons x xs ih =>
    obtain ⟨k, v⟩ := x
    intro ys
    cases ys with
    | nil => rw [nil, key]; simp [eqValM]
    | cons y ys =>
      obtain ⟨k', w⟩ := y
      rw [key, key, eqValM, eqValM, ih]
      rfl

theorem heightM_unesc (E : Env) (ku : Bool) : ∀ xs, heightM (unescKeys E ku xs) = heightM xs := by
  intro xs
  cases ku
  case true => rfl
  induction xs with
  | nil => rfl
  | cons x xs ih => obtain ⟨k, v⟩ := x; simp only [unescKeys, Bool.false_eq_true, if_false] at ih; simp [unescKeys, heightM, ih]

theorem repM_unesc (E : Env) (ku : Bool) {m : Ptr → Node} {xs : List (Bytes × Val)} {ps : List (Bytes × Option Ptr)} {F : List Ptr}
    (hr : RepM m xs ps F) : RepM m (unescKeys E ku xs) (unescKeys E ku ps) F := by
  cases ku
  case true => exact hr
  rw [repM_iff] at hr ⊢
  obtain ⟨h1, h2⟩ := hr
  simp only [unescKeys, Bool.false_eq_true, if_false, List.map_map, Function.comp_def]
  refine ⟨?_, h2⟩
  have := congrArg (List.map E.unesc) h1
  simpa [List.map_map, Function.comp_def] using this

theorem SofterM.unesc (E : Env) (ku : Bool) : ∀ xs ys, SofterM E (unescKeys E ku xs) ys → ∃ zs, SofterM E xs zs ∧ ys = unescKeys E ku zs := by
  intro xs
  cases ku
  case true => exact fun ys h => ⟨ys, h, rfl⟩
  induction xs with
  | nil => intro ys h; exact ⟨[], rfl, h⟩
  | cons x xs ih =>
    obtain ⟨k, v⟩ := x
    intro ys h
    obtain ⟨w, ws, rfl, h1, h2⟩ := h
    obtain ⟨zs, h3, rfl⟩ := ih ws h2
    exact ⟨(k, w) :: zs, ⟨w, zs, rfl, h1, h3⟩, rfl⟩

theorem unescKeys_cons {α : Type} (E : Env) (ku : Bool) (k : Bytes) (v : α) (xs : List (Bytes × α)) : unescKeys E ku ((k, v) :: xs) = (keyOf E ku k, v) :: unescKeys E ku xs := by
  cases ku <;> simp [unescKeys, keyOf]

theorem comparedM_unesc (E : Env) (ku ku' : Bool) : ∀ xs ys, comparedM E true true (unescKeys E ku xs) (unescKeys E ku' ys) =
    (unescKeys E ku (comparedM E ku ku' xs ys).1, unescKeys E ku' (comparedM E ku ku' xs ys).2)
  | [], ys => by
    have e : unescKeys E ku ([] : List (Bytes × Val)) = [] := by cases ku <;> rfl
    simp [e, comparedM]
  | (k, v) :: xs, [] => by
    have e : unescKeys E ku' ([] : List (Bytes × Val)) = [] := by cases ku' <;> rfl
    simp [e, comparedM, unescKeys_cons]
  | (k, v) :: xs, (k', w) :: ys => by
    have ih := comparedM_unesc E ku ku' xs ys
    rw [unescKeys_cons, unescKeys_cons]
    simp only [comparedM]
    by_cases hk : keyOf E ku k = keyOf E ku' k'
    · have hk1 : ¬keyOf E true (keyOf E ku k) ≠ keyOf E true (keyOf E ku' k') := fun h => h hk
      have hk2 : ¬keyOf E ku k ≠ keyOf E ku' k' := fun h => h hk
      simp only [if_neg hk1, if_neg hk2]
      split
      · simp only [unescKeys_cons, ih]
      · simp only [unescKeys_cons]
    · have hk' : keyOf E true (keyOf E ku k) ≠ keyOf E true (keyOf E ku' k') := hk
      have hk2 : keyOf E ku k ≠ keyOf E ku' k' := hk
      simp only [if_pos hk2, if_pos hk', unescKeys_cons]

theorem EqPost.same {E : Env} {h : Heap} {a b : Option Ptr} {v w : Val} {F G : List Ptr} (I : Inv h) (hv : Rep h.mem v a F) (hw : Rep h.mem w b G)
    (e : compared E v w = (v, w)) : EqPost E h a b v w F G h := ⟨Frame.refl I _, by rw [e]; exact hv, by rw [e]; exact hw⟩

/-- Values of different types other than strings, and leaves, stay. -/
theorem compared_flat (E : Env) {v w : Val} (h1 : ¬(v.vt = .object ∧ w.vt = .object)) (h2 : ¬(v.vt = .array ∧ w.vt = .array))
    (h3 : ¬(v.vt = .string ∧ w.vt = .rawString)) (h4 : ¬(v.vt = .rawString ∧ w.vt = .string)) : compared E v w = (v, w) := by
  cases v <;> cases w <;> first | rfl | (simp [Val.vt] at h1 h2 h3 h4)

/-- Reading a raw string turns it into a string. -/
theorem raw_read {h : Heap} {p : Ptr} {E : Env} {s : Bytes} {F : List Ptr} (I : Inv h) (hr : Rep h.mem (.raw s) (some p) F) :
    Frame h [p] (h.set p (getString E .panic (h.mem p)).2) ∧ Rep (h.set p (getString E .panic (h.mem p)).2).mem (.str (E.unesc s)) (some p) F ∧
    ((h.set p (getString E .panic (h.mem p)).2).mem p).str = E.unesc s := by
  obtain ⟨h5, hd, hs, rfl⟩ := rep_raw I hr
  have e : (getString E .panic (h.mem p)).2 = { h.mem p with dt := .string, str := E.unesc s } := by simp [getString, hd, hs]
  rw [e]
  refine ⟨Frame.setNode I _ h5 rfl (by simp), ?_, by simp⟩
  refine (rep_leaf rfl _ _).2 ⟨p, rfl, ?_, ?_⟩
  · simp [foot]; omega
  · rw [view_ge h5, set_mem_same]; simp [leafOf]

theorem str_read {h : Heap} {p : Ptr} {E : Env} {s : Bytes} {F : List Ptr} (I : Inv h) (hr : Rep h.mem (.str s) (some p) F) :
    h.set p (getString E .panic (h.mem p)).2 = h := by
  obtain ⟨h5, hd, hs, rfl⟩ := rep_str I hr
  have e : (getString E .panic (h.mem p)).2 = h.mem p := by simp [getString, hd]
  rw [e, set_self]

/-- Two leaves, or two values of different types other than strings: the heap stays as it is. -/
theorem equal_flat {E : Env} {f : Nat} {h : Heap} {p q : Ptr} {v w : Val} {F G : List Ptr} (I : Inv h) (hv : Rep h.mem v (some p) F)
    (hw : Rep h.mem w (some q) G) (h1 : ¬(v.vt = .object ∧ w.vt = .object)) (h2 : ¬(v.vt = .array ∧ w.vt = .array))
    (h3 : ¬(v.vt = .string ∧ w.vt = .rawString)) (h4 : ¬(v.vt = .rawString ∧ w.vt = .string)) :
    ∃ x, equal E (f + 1) h (some p) (some q) = .ok (x, h) ∧ eqVal E v w = .ok x := by
  have d1 := rep_dt hv
  have d2 := rep_dt hw
  cases v <;> cases w <;> simp only [Val.vt, and_self, not_true_eq_false] at d1 d2 h1 h2 h3 h4 <;>
    first
    | exact absurd rfl (rep_ne_nil hw)
    | exact absurd rfl (rep_ne_nil hv)
    | (refine ⟨false, ?_, ?_⟩ <;> simp [equal, d1, d2, VT.ord, eqVal, eqNum, dblOf] <;> done)
    | (refine ⟨true, ?_, ?_⟩ <;> simp [equal, d1, d2, VT.ord, eqVal] <;> done)
    | skip
  case str.str a b =>
    obtain ⟨-, -, e1, -⟩ := rep_str I hv
    obtain ⟨-, -, e2, -⟩ := rep_str I hw
    exact ⟨a == b, by simp [equal, d1, d2, e1, e2], by simp [eqVal]⟩
  case raw.raw a b =>
    obtain ⟨-, -, e1, -⟩ := rep_raw I hv
    obtain ⟨-, -, e2, -⟩ := rep_raw I hw
    exact ⟨a == b, by simp [equal, d1, d2, e1, e2], by simp [eqVal]⟩
  case bin.bin _ a _ b =>
    have e1 := (rep_bin I hv).2
    have e2 := (rep_bin I hw).2
    exact ⟨a == b, by simp [equal, d1, d2, e1, e2], by simp [eqVal]⟩
  case exbin.exbin _ a _ b =>
    have e1 := (rep_exbin I hv).2
    have e2 := (rep_exbin I hw).2
    exact ⟨a == b, by simp [equal, d1, d2, e1, e2], by simp [eqVal]⟩
  case dateTime.dateTime a b =>
    have e1 := (rep_dateTime I hv).2
    have e2 := (rep_dateTime I hw).2
    exact ⟨a == b, by simp [equal, d1, d2, e1, e2, VT.ord], by simp [eqVal]⟩
  case int.int _ a _ b =>
    have e1 := (rep_int I hv).2
    have e2 := (rep_int I hw).2
    exact ⟨a == b, by simp [equal, d1, d2, e1, e2, VT.ord], by simp [eqVal]⟩
  case float.float a b =>
    have e1 := (rep_float I hv).2
    have e2 := (rep_float I hw).2
    exact ⟨a == b, by simp [equal, d1, d2, e1, e2, VT.ord], by simp [eqVal]⟩
  case double.double a b =>
    have e1 := (rep_double I hv).2
    have e2 := (rep_double I hw).2
    exact ⟨a == b, by simp [equal, d1, d2, e1, e2, VT.ord], by simp [eqVal]⟩
  case int.float _ a b =>
    have e1 := (rep_int I hv).2
    have e2 := (rep_float I hw).2
    exact ⟨_, by simp only [equal, d1, d2, e1, e2, VT.ord, getDouble]; simp; rfl, by simp [eqVal, eqNum, dblOf]⟩
  case int.double _ a b =>
    have e1 := (rep_int I hv).2
    have e2 := (rep_double I hw).2
    exact ⟨_, by simp only [equal, d1, d2, e1, e2, VT.ord, getDouble]; simp; rfl, by simp [eqVal, eqNum, dblOf]⟩
  case float.int a _ b =>
    have e1 := (rep_float I hv).2
    have e2 := (rep_int I hw).2
    exact ⟨_, by simp only [equal, d1, d2, e1, e2, VT.ord, getDouble]; simp; rfl, by simp [eqVal, eqNum, dblOf]⟩
  case float.double a b =>
    have e1 := (rep_float I hv).2
    have e2 := (rep_double I hw).2
    exact ⟨_, by simp only [equal, d1, d2, e1, e2, VT.ord, getDouble]; simp; rfl, by simp [eqVal, eqNum, dblOf]⟩
  case double.int a _ b =>
    have e1 := (rep_double I hv).2
    have e2 := (rep_int I hw).2
    exact ⟨_, by simp only [equal, d1, d2, e1, e2, VT.ord, getDouble]; simp; rfl, by simp [eqVal, eqNum, dblOf]⟩
  case double.float a b =>
    have e1 := (rep_double I hv).2
    have e2 := (rep_float I hw).2
    exact ⟨_, by simp only [equal, d1, d2, e1, e2, VT.ord, getDouble]; simp; rfl, by simp [eqVal, eqNum, dblOf]⟩

theorem rep_none {m : Ptr → Node} {v : Val} {F : List Ptr} (h : Rep m v none F) : v = .nil ∧ F = [] := by
  cases v <;> simp [Rep, RepLeaf] at h ⊢
  exact h

theorem repM_length {m : Ptr → Node} {xs : List (Bytes × Val)} {ps : List (Bytes × Option Ptr)} {F : List Ptr} (h : RepM m xs ps F) :
    ps.length = xs.length := by
  simpa using repL_length ((repM_iff ..).1 h).2

theorem unescAll_frame {E : Env} {h : Heap} (I : Inv h) {p : Ptr} (h5 : 5 ≤ p) : Frame h [p] (unescAll E h p) :=
  Frame.setNode I _ h5 rfl (by simp)

/-- `Equal` on two disjoint trees. -/
theorem equal_spec (E : Env) : ∀ (f : Nat) (h : Heap) (a b : Option Ptr) (v w : Val) (F G : List Ptr), Inv h → Rep h.mem v a F → Rep h.mem w b G →
    (F ++ G).Nodup → (∀ q ∈ F ++ G, ¬Avail h q) → EqualOk E f h a b v w F G (equal E f h a b)
  | 0, h, a, b, v, w, F, G, I, hv, hw, hn, hl => by
    simp only [equal, EqualOk]
    cases v <;> simp [height]
  | f + 1, h, none, none, v, w, F, G, I, hv, hw, hn, hl => by
    obtain ⟨rfl, -⟩ := rep_none hv
    obtain ⟨rfl, -⟩ := rep_none hw
    exact ⟨by simp [eqVal], EqPost.same I hv hw rfl⟩
  | f + 1, h, none, some q, v, w, F, G, I, hv, hw, hn, hl => by
    obtain ⟨rfl, -⟩ := rep_none hv
    have := rep_ne_nil hw
    refine ⟨?_, EqPost.same I hv hw rfl⟩
    cases w <;> first | contradiction | simp [eqVal, eqNum, dblOf]
  | f + 1, h, some p, none, v, w, F, G, I, hv, hw, hn, hl => by
    obtain ⟨rfl, -⟩ := rep_none hw
    have := rep_ne_nil hv
    refine ⟨?_, EqPost.same I hv hw (by cases v <;> rfl)⟩
    cases v <;> first | contradiction | simp [eqVal, eqNum, dblOf]
  | f + 1, h, some p, some q, v, w, F, G, I, hv, hw, hn, hl => by
    have hrec := equal_spec E f
    by_cases h1 : v.vt = .object ∧ w.vt = .object
    · obtain ⟨ev, ew⟩ := h1
      obtain ⟨ku, kvs, rfl⟩ : ∃ ku kvs, v = .obj ku kvs := by cases v <;> simp [Val.vt] at ev; exact ⟨_, _, rfl⟩
      obtain ⟨ku', kvs', rfl⟩ : ∃ ku kvs, w = .obj ku kvs := by cases w <;> simp [Val.vt] at ew; exact ⟨_, _, rfl⟩
      have hv0 := hv
      have hw0 := hw
      obtain ⟨p', F0, ep, p5, rfl, dp, kp, mp⟩ := hv
      obtain ⟨q', G0, eq, q5, rfl, dq, kq, mq⟩ := hw
      cases ep; cases eq
      have hlp : (h.mem p).kvs.length = kvs.length := repM_length mp
      have hlq : (h.mem q).kvs.length = kvs'.length := repM_length mq
      rw [equal]
      simp only [dp, dq, hlp, hlq, ne_eq, not_true_eq_false, if_false]
      by_cases hlen : kvs.length = kvs'.length
      case neg =>
        simp only [hlen, not_false_eq_true, if_true]
        exact ⟨by simp [eqVal, hlen], EqPost.same I hv0 hw0 (by simp [compared, hlen])⟩
      simp only [hlen, not_true_eq_false, if_false]
      have hpq : p ≠ q ∧ p ∉ F0 ++ G0 ∧ q ∉ F0 ++ G0 ∧ (F0 ++ G0).Nodup := by
        clear hrec hl
        simp only [List.nodup_append, List.nodup_cons, List.mem_cons, List.mem_append] at hn ⊢
        grind
      obtain ⟨hpq, hpn, hqn, hn0⟩ := hpq
      have hl0 : ∀ r ∈ F0 ++ G0, ¬Avail h r := fun r hr => hl r (by simp only [List.mem_append, List.mem_cons] at hr ⊢; grind)
      obtain ⟨h2, e2⟩ : ∃ h2, h2 = unescAll E (unescAll E h p) q := ⟨_, rfl⟩
      rw [← e2]
      have f1 : Frame h [p] (unescAll E h p) := unescAll_frame I p5
      have f2 : Frame h [p, q] h2 := e2 ▸ (f1.mono (by simp)).then ((unescAll_frame f1.inv q5).mono (by simp))
      have n1 : h2.mem p = { h.mem p with ku := true, kvs := unescKeys E ku (h.mem p).kvs } := by
        rw [e2, unescAll, upd_mem_ne _ _ hpq, unescAll, upd_mem_same, kp]
      have n2 : h2.mem q = { h.mem q with ku := true, kvs := unescKeys E ku' (h.mem q).kvs } := by
        rw [e2, unescAll, upd_mem_same, unescAll, upd_mem_ne _ _ hpq.symm, kq]
      have hF : ∀ r ∈ F0 ++ G0, r ∉ [p, q] := by
        intro r hr hm
        simp only [List.mem_cons, List.not_mem_nil, or_false] at hm
        rcases hm with rfl | rfl
        · exact hpn hr
        · exact hqn hr
      have m1 := repM_unesc E ku (repM_frame_keep I f2 mp (fun r hr => hl0 r (by simp [hr])) (fun r hr => hF r (by simp [hr])))
      have m2 := repM_unesc E ku' (repM_frame_keep I f2 mq (fun r hr => hl0 r (by simp [hr])) (fun r hr => hF r (by simp [hr])))
      have ok := equalM_spec hrec _ _ _ _ h2 F0 G0 ⟨f2.inv, m1, m2, hn0, fun r hr => f2.not_avail (hl0 r hr)⟩
      rw [n1, n2]
      dsimp only
      generalize equalM _ h2 (unescKeys E ku (h.mem p).kvs) (unescKeys E ku' (h.mem q).kvs) = res at ok
      have ee : eqVal E (.obj ku kvs) (.obj ku' kvs') = eqValM E ku ku' kvs kvs' := by simp [eqVal, hlen]
      match res with
      | .err e => exact ok.elim
      | .panic => simp only [EqualOkM, eqValM_unesc] at ok; simp only [EqualOk, ee, ok]
      | .loop => simp only [EqualOkM, heightM_unesc] at ok; simp only [EqualOk, height]; omega
      | .ok (x, h3) =>
        obtain ⟨ex, fr, hx, hy⟩ := ok
        rw [eqValM_unesc] at ex
        rw [comparedM_unesc] at hx hy
        have ec : compared E (.obj ku kvs) (.obj ku' kvs') = (.obj true (unescKeys E ku (comparedM E ku ku' kvs kvs').1), .obj true (unescKeys E ku' (comparedM E ku ku' kvs kvs').2)) := by
          simp [compared, hlen]
        have k1 : h3.mem p = h2.mem p := fr.mem p p5 hpn (f2.not_avail (hl p (by simp)))
        have k2 : h3.mem q = h2.mem q := fr.mem q q5 hqn (f2.not_avail (hl q (by simp)))
        refine ⟨by rw [ee, ex], (f2.mono (by simp)).then (fr.mono (by simp only [List.mem_append, List.mem_cons]; grind)), ?_, ?_⟩ <;> rw [ec]
        · exact ⟨p, F0, rfl, p5, rfl, by rw [k1, n1]; exact dp, by rw [k1, n1], by rw [k1, n1]; exact hx⟩
        · exact ⟨q, G0, rfl, q5, rfl, by rw [k2, n2]; exact dq, by rw [k2, n2], by rw [k2, n2]; exact hy⟩
    by_cases h2 : v.vt = .array ∧ w.vt = .array
    · obtain ⟨ev, ew⟩ := h2
      obtain ⟨xs, rfl⟩ : ∃ xs, v = .arr xs := by cases v <;> simp [Val.vt] at ev; exact ⟨_, rfl⟩
      obtain ⟨ys, rfl⟩ : ∃ xs, w = .arr xs := by cases w <;> simp [Val.vt] at ew; exact ⟨_, rfl⟩
      obtain ⟨p', F0, ep, p5, rfl, dp, mp⟩ := hv
      obtain ⟨q', G0, eq, q5, rfl, dq, mq⟩ := hw
      cases ep; cases eq
      rw [equal]
      simp only [dp, dq, ne_eq, not_true_eq_false, if_false]
      have hpq : p ∉ F0 ++ G0 ∧ q ∉ F0 ++ G0 ∧ (F0 ++ G0).Nodup := by
        clear hrec hl
        simp only [List.nodup_append, List.nodup_cons, List.mem_cons, List.mem_append] at hn ⊢
        grind
      obtain ⟨hpn, hqn, hn0⟩ := hpq
      have hl0 : ∀ r ∈ F0 ++ G0, ¬Avail h r := fun r hr => hl r (by simp only [List.mem_append, List.mem_cons] at hr ⊢; grind)
      have ok := equalL_spec hrec _ _ _ _ h F0 G0 ⟨I, mp, mq, hn0, hl0⟩
      generalize equalL _ h (h.mem p).arr (h.mem q).arr = res at ok
      have ee : eqVal E (.arr xs) (.arr ys) = eqValL E xs ys := by simp [eqVal]
      match res with
      | .err e => exact ok.elim
      | .panic => simp only [EqualOkL] at ok; simp only [EqualOk, ee, ok]
      | .loop => simp only [EqualOkL] at ok; simp only [EqualOk, height]; omega
      | .ok (x, h3) =>
        obtain ⟨ex, fr, hx, hy⟩ := ok
        have k1 : h3.mem p = h.mem p := fr.mem p p5 hpn (hl p (by simp))
        have k2 : h3.mem q = h.mem q := fr.mem q q5 hqn (hl q (by simp))
        refine ⟨by rw [ee, ex], fr.mono (by simp only [List.mem_append, List.mem_cons]; grind), ?_, ?_⟩
        · exact ⟨p, F0, rfl, p5, rfl, by rw [k1]; exact dp, by rw [k1]; exact hx⟩
        · exact ⟨q, G0, rfl, q5, rfl, by rw [k2]; exact dq, by rw [k2]; exact hy⟩
    by_cases h3 : v.vt = .string ∧ w.vt = .rawString
    · obtain ⟨ev, ew⟩ := h3
      obtain ⟨s, rfl⟩ : ∃ xs, v = .str xs := by cases v <;> simp [Val.vt] at ev; exact ⟨_, rfl⟩
      obtain ⟨t, rfl⟩ : ∃ xs, w = .raw xs := by cases w <;> simp [Val.vt] at ew; exact ⟨_, rfl⟩
      obtain ⟨p5, dp, sp, rfl⟩ := rep_str I hv
      obtain ⟨q5, dq, sq, rfl⟩ := rep_raw I hw
      obtain ⟨fr, hr, hs⟩ := raw_read (E := E) I hw
      have hpq : p ≠ q := by rintro rfl; simp at hn
      rw [equal]
      simp only [dp, dq, ne_eq, reduceCtorEq, not_false_eq_true, if_true, and_self, true_or]
      rw [str_read I hv]
      refine ⟨?_, fr.mono (by simp), fr.rep_keep I hv (by simpa using hl p (by simp)) (by simpa using hpq), hr⟩
      rw [hs, set_mem_ne _ _ hpq, sp, eqVal]
    by_cases h4 : v.vt = .rawString ∧ w.vt = .string
    · obtain ⟨ev, ew⟩ := h4
      obtain ⟨s, rfl⟩ : ∃ xs, v = .raw xs := by cases v <;> simp [Val.vt] at ev; exact ⟨_, rfl⟩
      obtain ⟨t, rfl⟩ : ∃ xs, w = .str xs := by cases w <;> simp [Val.vt] at ew; exact ⟨_, rfl⟩
      obtain ⟨p5, dp, sp, rfl⟩ := rep_raw I hv
      obtain ⟨q5, dq, sq, rfl⟩ := rep_str I hw
      obtain ⟨fr, hr, hs⟩ := raw_read (E := E) I hv
      have hpq : p ≠ q := by rintro rfl; simp at hn
      have hw' := fr.rep_keep I hw (by simpa using hl q (by simp)) (by simpa using hpq.symm)
      rw [equal]
      simp only [dp, dq, ne_eq, reduceCtorEq, not_false_eq_true, if_true, and_self, or_true]
      rw [str_read fr.inv hw']
      refine ⟨?_, fr.mono (by simp), hr, hw'⟩
      rw [hs, set_mem_ne _ _ hpq.symm, sq, eqVal]
    obtain ⟨x, e1, e2⟩ := equal_flat (E := E) (f := f) I hv hw h1 h2 h3 h4
    rw [e1]
    exact ⟨e2, EqPost.same I hv hw (compared_flat E h1 h2 h3 h4)⟩

/-! ## A tree compared with itself -/

/-- The outcome of `v.Equal(v)`. -/
def SelfOk (E : Env) (h : Heap) (a : Option Ptr) (v : Val) (F : List Ptr) (r : Res (Bool × Heap)) : Prop :=
  ∃ h', r = .ok (true, h') ∧ Frame h F h' ∧ ∃ v', Rep h'.mem v' a F ∧ Softer E v v'

theorem equalL_self {E : Env} {f : Nat} {rec : Heap → Option Ptr → Option Ptr → Res (Bool × Heap)}
    (hrec : ∀ h a v F, Inv h → Rep h.mem v a F → F.Nodup → (∀ q ∈ F, ¬Avail h q) → height v ≤ f → SelfOk E h a v F (rec h a a)) :
    ∀ (xs : List Val) (ps : List (Option Ptr)) (h : Heap) (F : List Ptr), Inv h → RepL h.mem xs ps F → F.Nodup → (∀ q ∈ F, ¬Avail h q) → heightL xs ≤ f →
      ∃ h', equalL rec h ps ps = .ok (true, h') ∧ Frame h F h' ∧ ∃ xs', RepL h'.mem xs' ps F ∧ SofterL E xs xs'
  | [], ps, h, F, I, hr, hn, hl, hf => by
    have hr0 := hr
    obtain ⟨rfl, rfl⟩ := hr
    exact ⟨h, rfl, Frame.refl I _, [], hr0, rfl⟩
  | x :: xs, ps, h, F, I, hr, hn, hl, hf => by
    obtain ⟨p, ps, F1, F2, rfl, rfl, hF1, hF2⟩ := hr
    obtain ⟨hn1, hn2, hd⟩ := List.nodup_append.1 hn
    simp only [heightL] at hf
    obtain ⟨h1, e1, fr, x', hx, sx⟩ := hrec h p x F1 I hF1 hn1 (fun q hq => hl q (by simp [hq])) (by omega)
    have hl2 : ∀ q ∈ F2, ¬Avail h q := fun q hq => hl q (by simp [hq])
    have kF2 := repL_frame_keep I fr hF2 hl2 (fun r h2 h1 => hd r h1 r h2 rfl)
    obtain ⟨h2, e2, fr2, xs', hxs, sxs⟩ := equalL_self hrec xs ps h1 F2 fr.inv kF2 hn2 (fun q hq => fr.not_avail (hl2 q hq)) (by omega)
    refine ⟨h2, by rw [equalL, e1]; simpa using e2, (fr.mono (by simp; grind)).then (fr2.mono (by simp; grind)), x' :: xs', ⟨p, ps, F1, F2, rfl, rfl, ?_, hxs⟩, x', xs', rfl, sx, sxs⟩
    exact fr2.rep_keep fr.inv hx (fun q hq => fr.not_avail (hl q (by simp [hq]))) (fun r h1 h2 => hd r h1 r h2 rfl)

theorem equalM_self {E : Env} {f : Nat} {rec : Heap → Option Ptr → Option Ptr → Res (Bool × Heap)}
    (hrec : ∀ h a v F, Inv h → Rep h.mem v a F → F.Nodup → (∀ q ∈ F, ¬Avail h q) → height v ≤ f → SelfOk E h a v F (rec h a a)) :
    ∀ (xs : List (Bytes × Val)) (ps : List (Bytes × Option Ptr)) (h : Heap) (F : List Ptr), Inv h → RepM h.mem xs ps F → F.Nodup → (∀ q ∈ F, ¬Avail h q) → heightM xs ≤ f →
      ∃ h', equalM rec h ps ps = .ok (true, h') ∧ Frame h F h' ∧ ∃ xs', RepM h'.mem xs' ps F ∧ SofterM E xs xs'
  | [], ps, h, F, I, hr, hn, hl, hf => by
    have hr0 := hr
    obtain ⟨rfl, rfl⟩ := hr
    exact ⟨h, rfl, Frame.refl I _, [], hr0, rfl⟩
  | (k, x) :: xs, ps, h, F, I, hr, hn, hl, hf => by
    obtain ⟨p, ps, F1, F2, rfl, rfl, hF1, hF2⟩ := hr
    dsimp only at hF1 hF2
    obtain ⟨hn1, hn2, hd⟩ := List.nodup_append.1 hn
    simp only [heightM] at hf
    obtain ⟨h1, e1, fr, x', hx, sx⟩ := hrec h p x F1 I hF1 hn1 (fun q hq => hl q (by simp [hq])) (by omega)
    have hl2 : ∀ q ∈ F2, ¬Avail h q := fun q hq => hl q (by simp [hq])
    have kF2 := repM_frame_keep I fr hF2 hl2 (fun r h2 h1 => hd r h1 r h2 rfl)
    obtain ⟨h2, e2, fr2, xs', hxs, sxs⟩ := equalM_self hrec xs ps h1 F2 fr.inv kF2 hn2 (fun q hq => fr.not_avail (hl2 q hq)) (by omega)
    refine ⟨h2, by rw [equalM, e1]; simpa using e2, (fr.mono (by simp; grind)).then (fr2.mono (by simp; grind)), (k, x') :: xs', ⟨p, ps, F1, F2, rfl, rfl, ?_, hxs⟩, x', xs', rfl, sx, sxs⟩
    exact fr2.rep_keep fr.inv hx (fun q hq => fr.not_avail (hl q (by simp [hq]))) (fun r h1 h2 => hd r h1 r h2 rfl)

mutual
theorem eqVal_same (E : Env) : ∀ v, eqVal E v v = .ok true
  | .nil | .str _ | .raw _ | .int _ _ | .float _ | .double _ | .dateTime _ | .bin _ _ | .exbin _ _ | .null | .tru | .fls | .nan | .inf => by simp [eqVal]
  | .obj ku kvs => by simpa [eqVal] using eqValM_same E ku kvs
  | .arr xs => by simpa [eqVal] using eqValL_same E xs
theorem eqValM_same (E : Env) (ku : Bool) : ∀ kvs, eqValM E ku ku kvs kvs = .ok true
  | [] => by simp [eqValM]
  | (k, v) :: kvs => by simp [eqValM, eqVal_same E v, eqValM_same E ku kvs]
theorem eqValL_same (E : Env) : ∀ xs, eqValL E xs xs = .ok true
  | [] => by simp [eqValL]
  | v :: xs => by simp [eqValL, eqVal_same E v, eqValL_same E xs]
end

/-- `v.Equal(v)`. -/
theorem equal_self (E : Env) : ∀ (f : Nat) (h : Heap) (a : Option Ptr) (v : Val) (F : List Ptr), Inv h → Rep h.mem v a F → F.Nodup → (∀ q ∈ F, ¬Avail h q) →
    height v ≤ f → SelfOk E h a v F (equal E f h a a)
  | 0, h, a, v, F, I, hv, hn, hl, hf => by cases v <;> simp [height] at hf
  | f + 1, h, none, v, F, I, hv, hn, hl, hf => ⟨h, rfl, Frame.refl I _, v, hv, Softer.refl E v⟩
  | f + 1, h, some p, v, F, I, hv, hn, hl, hf => by
    have hrec := equal_self E f
    by_cases h1 : v.vt = .object
    · obtain ⟨ku, kvs, rfl⟩ : ∃ ku kvs, v = .obj ku kvs := by cases v <;> simp [Val.vt] at h1; exact ⟨_, _, rfl⟩
      obtain ⟨p', F0, ep, p5, rfl, dp, kp, mp⟩ := hv
      cases ep
      obtain ⟨hpn, hn0⟩ := List.nodup_cons.1 hn
      have hl0 : ∀ r ∈ F0, ¬Avail h r := fun r hr => hl r (by simp [hr])
      simp only [height] at hf
      rw [equal]
      simp only [dp, ne_eq, not_true_eq_false, if_false]
      obtain ⟨h2, e2⟩ : ∃ h2, h2 = unescAll E (unescAll E h p) p := ⟨_, rfl⟩
      rw [← e2]
      have f1 : Frame h [p] (unescAll E h p) := unescAll_frame I p5
      have f2 : Frame h [p] h2 := e2 ▸ f1.then (unescAll_frame f1.inv p5)
      have n1 : h2.mem p = { h.mem p with ku := true, kvs := unescKeys E ku (h.mem p).kvs } := by
        rw [e2, unescAll, upd_mem_same, unescAll, upd_mem_same, kp]; simp [unescKeys]
      have hF : ∀ r ∈ F0, r ∉ [p] := fun r hr hm => hpn (by simp only [List.mem_singleton] at hm; exact hm ▸ hr)
      have m1 := repM_unesc E ku (repM_frame_keep I f2 mp hl0 hF)
      obtain ⟨h3, e3, fr, xs', hx, sx⟩ := equalM_self hrec _ _ h2 F0 f2.inv m1 hn0 (fun r hr => f2.not_avail (hl0 r hr)) (by rw [heightM_unesc]; omega)
      rw [n1]
      dsimp only
      obtain ⟨zs, sz, rfl⟩ := SofterM.unesc E ku _ _ sx
      have k1 : h3.mem p = h2.mem p := fr.mem p p5 hpn (f2.not_avail (hl p (by simp)))
      refine ⟨h3, e3, (f2.mono (by simp)).then (fr.mono (by simp; grind)), .obj true (unescKeys E ku zs), ?_, zs, sz, Or.inr rfl⟩
      exact ⟨p, F0, rfl, p5, rfl, by rw [k1, n1]; exact dp, by rw [k1, n1], by rw [k1, n1]; exact hx⟩
    by_cases h2 : v.vt = .array
    · obtain ⟨xs, rfl⟩ : ∃ xs, v = .arr xs := by cases v <;> simp [Val.vt] at h2; exact ⟨_, rfl⟩
      obtain ⟨p', F0, ep, p5, rfl, dp, mp⟩ := hv
      cases ep
      obtain ⟨hpn, hn0⟩ := List.nodup_cons.1 hn
      have hl0 : ∀ r ∈ F0, ¬Avail h r := fun r hr => hl r (by simp [hr])
      simp only [height] at hf
      rw [equal]
      simp only [dp, ne_eq, not_true_eq_false, if_false]
      obtain ⟨h3, e3, fr, xs', hx, sx⟩ := equalL_self hrec _ _ h F0 I mp hn0 hl0 (by omega)
      have k1 : h3.mem p = h.mem p := fr.mem p p5 hpn (hl p (by simp))
      refine ⟨h3, e3, fr.mono (by simp; grind), .arr xs', ?_, xs', sx, rfl⟩
      exact ⟨p, F0, rfl, p5, rfl, by rw [k1]; exact dp, by rw [k1]; exact hx⟩
    obtain ⟨x, e1, e2⟩ := equal_flat (E := E) (f := f) I hv hv (fun h => h1 h.1) (fun h => h2 h.1) (fun h => by simp [h.1] at h) (fun h => by simp [h.1] at h)
    rw [eqVal_same] at e2
    cases e2
    exact ⟨h, e1, Frame.refl I _, v, hv, Softer.refl E v⟩

end Dxs.Heap
