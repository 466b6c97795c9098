import Verif.Heap.Equal
import Verif.Heap.Keys

/-!
# MergeWith on trees
-/

namespace Dxs.Heap

/-! ## Equal on values without pending escapes -/

mutual
/-- No unparsed JSON strings and no names still to be unescaped. -/
def Settled : Val → Prop
  | .raw _ => False
  | .obj ku kvs => ku = true ∧ SettledM kvs
  | .arr xs => SettledL xs
  | _ => True
/-- The members. -/
def SettledM : List (Bytes × Val) → Prop
  | [] => True
  | (_, v) :: kvs => Settled v ∧ SettledM kvs
/-- The elements. -/
def SettledL : List Val → Prop
  | [] => True
  | v :: vs => Settled v ∧ SettledL vs
end

/-- The outcome of `Equal` on settled values: the memory stays as it is. -/
def EqualSame (E : Env) (f : Nat) (h : Heap) (v w : Val) : Res (Bool × Heap) → Prop
  | .ok (x, h') => h' = h ∧ eqVal E v w = .ok x
  | .err _ => False
  | .panic => eqVal E v w = .panic
  | .loop => f < height v

theorem equalL_settled {E : Env} {f : Nat} {h : Heap} {rec : Heap → Option Ptr → Option Ptr → Res (Bool × Heap)}
    (hrec : ∀ a b v w F G, Rep h.mem v a F → Rep h.mem w b G → Settled v → Settled w → EqualSame E f h v w (rec h a b)) :
    ∀ (xs ys : List Val) (ps qs : List (Option Ptr)) (F G : List Ptr), RepL h.mem xs ps F → RepL h.mem ys qs G → SettledL xs → SettledL ys →
      match equalL rec h ps qs with
      | .ok (x, h') => h' = h ∧ eqValL E xs ys = .ok x
      | .err _ => False
      | .panic => eqValL E xs ys = .panic
      | .loop => f < heightL xs
  | [], ys, ps, qs, F, G, h1, h2, _, _ => by
    obtain ⟨rfl, rfl⟩ := h1
    exact ⟨rfl, by simp [eqValL]⟩
  | x :: xs, [], ps, qs, F, G, h1, h2, _, _ => by
    obtain ⟨p, ps, F1, F2, rfl, rfl, a1, a2⟩ := h1
    obtain ⟨rfl, rfl⟩ := h2
    simp [equalL, eqValL]
  | x :: xs, y :: ys, ps, qs, F, G, h1, h2, s1, s2 => by
    obtain ⟨p, ps, F1, F2, rfl, rfl, a1, a2⟩ := h1
    obtain ⟨q, qs, G1, G2, rfl, rfl, b1, b2⟩ := h2
    have ok := hrec p q x y F1 G1 a1 b1 s1.1 s2.1
    have ih := equalL_settled hrec xs ys ps qs F2 G2 a2 b2 s1.2 s2.2
    rw [equalL]
    generalize rec h p q = res at ok
    match res with
    | .err e => exact ok.elim
    | .panic => simp only [EqualSame] at ok; simp [Res.bind_panic, eqValL, ok]
    | .loop => simp only [EqualSame] at ok; simp only [Res.bind_loop, heightL]; omega
    | .ok (b, h1) =>
      obtain ⟨rfl, eb⟩ := ok
      simp only [Res.bind_ok]
      cases b with
      | false => simp [eqValL, eb]
      | true =>
        simp only [if_true, eqValL, eb]
        generalize equalL rec h1 ps qs = res2 at ih
        match res2 with
        | .err e => exact ih
        | .panic => exact ih
        | .loop => simp only [heightL]; dsimp only at ih; omega
        | .ok (b2, h2) => exact ih

theorem equalM_settled {E : Env} {f : Nat} {h : Heap} {rec : Heap → Option Ptr → Option Ptr → Res (Bool × Heap)}
    (hrec : ∀ a b v w F G, Rep h.mem v a F → Rep h.mem w b G → Settled v → Settled w → EqualSame E f h v w (rec h a b)) :
    ∀ (xs ys : List (Bytes × Val)) (ps qs : List (Bytes × Option Ptr)) (F G : List Ptr), RepM h.mem xs ps F → RepM h.mem ys qs G → SettledM xs → SettledM ys →
      match equalM rec h ps qs with
      | .ok (x, h') => h' = h ∧ eqValM E true true xs ys = .ok x
      | .err _ => False
      | .panic => eqValM E true true xs ys = .panic
      | .loop => f < heightM xs
  | [], ys, ps, qs, F, G, h1, h2, _, _ => by
    obtain ⟨rfl, rfl⟩ := h1
    exact ⟨rfl, by simp [eqValM]⟩
  | x :: xs, [], ps, qs, F, G, h1, h2, _, _ => by
    obtain ⟨p, ps, F1, F2, rfl, rfl, a1, a2⟩ := h1
    obtain ⟨rfl, rfl⟩ := h2
    simp [equalM, eqValM]
  | (k, x) :: xs, (k', y) :: ys, ps, qs, F, G, h1, h2, s1, s2 => by
    obtain ⟨p, ps, F1, F2, rfl, rfl, a1, a2⟩ := h1
    obtain ⟨q, qs, G1, G2, rfl, rfl, b1, b2⟩ := h2
    dsimp only at a1 b1 ⊢
    have ok := hrec p q x y F1 G1 a1 b1 s1.1 s2.1
    have ih := equalM_settled hrec xs ys ps qs F2 G2 a2 b2 s1.2 s2.2
    rw [equalM]
    by_cases hk : k = k'
    case neg =>
      simp [eqValM, keyOf, hk]
    subst hk
    simp only [ne_eq, not_true_eq_false, if_false]
    generalize rec h p q = res at ok
    match res with
    | .err e => exact ok.elim
    | .panic => simp only [EqualSame] at ok; simp [Res.bind_panic, eqValM, ok]
    | .loop => simp only [EqualSame] at ok; simp only [Res.bind_loop, heightM]; omega
    | .ok (b, h1) =>
      obtain ⟨rfl, eb⟩ := ok
      simp only [Res.bind_ok]
      cases b with
      | false => simp [eqValM, eb]
      | true =>
        simp only [if_true, eqValM, eb, ne_eq, not_true_eq_false, if_false]
        generalize equalM rec h1 ps qs = res2 at ih
        match res2 with
        | .err e => exact ih
        | .panic => exact ih
        | .loop => simp only [heightM]; dsimp only at ih; omega
        | .ok (b2, h2) => exact ih

theorem unescAll_same {E : Env} {h : Heap} {p : Ptr} (hk : (h.mem p).ku = true) : unescAll E h p = h := by
  have e : ∀ n : Node, n.ku = true → { n with ku := true, kvs := unescKeys E n.ku n.kvs } = n := by
    intro n hn
    cases n
    simp only at hn
    subst hn
    simp [unescKeys]
  unfold unescAll Heap.upd
  dsimp only
  rw [e _ hk, set_self]

/-- `Equal` of settled values changes nothing. The two values may overlap in any way. -/
theorem equal_settled (E : Env) : ∀ (f : Nat) (h : Heap) (a b : Option Ptr) (v w : Val) (F G : List Ptr), Inv h → Rep h.mem v a F → Rep h.mem w b G →
    Settled v → Settled w → EqualSame E f h v w (equal E f h a b)
  | 0, h, a, b, v, w, F, G, I, hv, hw, sv, sw => by
    simp only [equal, EqualSame]
    cases v <;> simp [height]
  | f + 1, h, none, none, v, w, F, G, I, hv, hw, sv, sw => by
    obtain ⟨rfl, -⟩ := rep_none hv
    obtain ⟨rfl, -⟩ := rep_none hw
    exact ⟨rfl, by simp [eqVal]⟩
  | f + 1, h, none, some q, v, w, F, G, I, hv, hw, sv, sw => by
    obtain ⟨rfl, -⟩ := rep_none hv
    have := rep_ne_nil hw
    refine ⟨rfl, ?_⟩
    cases w <;> first | contradiction | simp [eqVal]
  | f + 1, h, some p, none, v, w, F, G, I, hv, hw, sv, sw => by
    obtain ⟨rfl, -⟩ := rep_none hw
    have := rep_ne_nil hv
    refine ⟨rfl, ?_⟩
    cases v <;> first | contradiction | simp [eqVal, eqNum, dblOf]
  | f + 1, h, some p, some q, v, w, F, G, I, hv, hw, sv, sw => by
    have hrec := fun a b v w F G => equal_settled E f h a b v w F G I
    by_cases h1 : v.vt = .object ∧ w.vt = .object
    · obtain ⟨ev, ew⟩ := h1
      obtain ⟨ku, kvs, rfl⟩ : ∃ ku kvs, v = .obj ku kvs := by cases v <;> simp [Val.vt] at ev; exact ⟨_, _, rfl⟩
      obtain ⟨ku', kvs', rfl⟩ : ∃ ku kvs, w = .obj ku kvs := by cases w <;> simp [Val.vt] at ew; exact ⟨_, _, rfl⟩
      obtain ⟨p', F0, ep, p5, rfl, dp, kp, mp⟩ := hv
      obtain ⟨q', G0, eq, q5, rfl, dq, kq, mq⟩ := hw
      cases ep; cases eq
      obtain ⟨rfl, sv⟩ := sv
      obtain ⟨rfl, sw⟩ := sw
      have hlp : (h.mem p).kvs.length = kvs.length := repM_length mp
      have hlq : (h.mem q).kvs.length = kvs'.length := repM_length mq
      rw [equal]
      simp only [dp, dq, hlp, hlq, ne_eq, not_true_eq_false, if_false]
      by_cases hlen : kvs.length = kvs'.length
      case neg =>
        simp only [hlen, not_false_eq_true, if_true]
        exact ⟨rfl, by simp [eqVal, hlen]⟩
      simp only [hlen, not_true_eq_false, if_false]
      rw [unescAll_same kp, unescAll_same kq]
      have ok := equalM_settled hrec _ _ _ _ F0 G0 mp mq sv sw
      generalize equalM _ h (h.mem p).kvs (h.mem q).kvs = res at ok
      have ee : eqVal E (.obj true kvs) (.obj true kvs') = eqValM E true true kvs kvs' := by simp [eqVal, hlen]
      match res with
      | .err e => exact ok.elim
      | .panic => simp only [EqualSame, ee]; exact ok
      | .loop => simp only [EqualSame, height]; dsimp only at ok; omega
      | .ok (x, h3) => simp only [EqualSame, ee]; exact ok
    by_cases h2 : v.vt = .array ∧ w.vt = .array
    · obtain ⟨ev, ew⟩ := h2
      obtain ⟨xs, rfl⟩ : ∃ xs, v = .arr xs := by cases v <;> simp [Val.vt] at ev; exact ⟨_, rfl⟩
      obtain ⟨ys, rfl⟩ : ∃ xs, w = .arr xs := by cases w <;> simp [Val.vt] at ew; exact ⟨_, rfl⟩
      obtain ⟨p', F0, ep, p5, rfl, dp, mp⟩ := hv
      obtain ⟨q', G0, eq, q5, rfl, dq, mq⟩ := hw
      cases ep; cases eq
      rw [equal]
      simp only [dp, dq, ne_eq, not_true_eq_false, if_false]
      have ok := equalL_settled hrec _ _ _ _ F0 G0 mp mq sv sw
      generalize equalL _ h (h.mem p).arr (h.mem q).arr = res at ok
      have ee : eqVal E (.arr xs) (.arr ys) = eqValL E xs ys := by simp [eqVal]
      match res with
      | .err e => exact ok.elim
      | .panic => simp only [EqualSame, ee]; exact ok
      | .loop => simp only [EqualSame, height]; dsimp only at ok; omega
      | .ok (x, h3) => simp only [EqualSame, ee]; exact ok
    obtain ⟨x, e1, e2⟩ := equal_flat (E := E) (f := f) I hv hw h1 h2
      (fun h => by cases w <;> simp [Val.vt] at h; exact sw) (fun h => by cases v <;> simp [Val.vt] at h; exact sv)
    rw [e1]
    exact ⟨rfl, e2⟩

/-! ## Arrays -/

/-- The elements of `xs` that are Equal to no element of `ys`. -/
def newOnes (E : Env) (ys xs : List Val) : List Val :=
  xs.filter (fun x => ys.all (fun y => match eqVal E x y with | .ok b => !b | _ => true))

theorem memberL_spec {E : Env} {f : Nat} {h : Heap} (I : Inv h) {x : Val} {a : Option Ptr} {F : List Ptr} (hx : Rep h.mem x a F) (sx : Settled x) (hf : height x ≤ f) :
    ∀ (ys : List Val) (qs : List (Option Ptr)) (G : List Ptr), RepL h.mem ys qs G → SettledL ys → (∀ y ∈ ys, ∃ b, eqVal E x y = .ok b) →
      memberL (fun h a b => equal E f h a b) h a qs = .ok (!(ys.all (fun y => match eqVal E x y with | .ok b => !b | _ => true)), h)
  | [], qs, G, hr, _, _ => by obtain ⟨rfl, rfl⟩ := hr; rfl
  | y :: ys, qs, G, hr, sy, ht => by
    obtain ⟨q, qs, G1, G2, rfl, rfl, b1, b2⟩ := hr
    have ok := equal_settled E f h a q x y F G1 I hx b1 sx sy.1
    obtain ⟨b, eb⟩ := ht y (by simp)
    have ih := memberL_spec (E := E) I hx sx hf ys qs G2 b2 sy.2 (fun y hy => ht y (by simp [hy]))
    rw [memberL]
    generalize equal E f h a q = res at ok
    match res with
    | .err e => exact ok.elim
    | .panic => simp only [EqualSame, eb] at ok; cases ok
    | .loop => simp only [EqualSame] at ok; omega
    | .ok (b', h1) =>
      obtain ⟨rfl, eb'⟩ := ok
      rw [eb] at eb'
      cases eb'
      simp only [Res.bind_ok]
      cases b with
      | true => simp [eb]
      | false => simp only [Bool.false_eq_true, if_false]; rw [ih]; simp [eb]

/-- What is true after computing the clones to be added. -/
structure Added (h : Heap) (qs : List Ptr) (h' : Heap) (xs : List Val) (Q : List Ptr) : Prop where
  rep : RepL h'.mem xs (qs.map some) Q
  nodup : Q.Nodup
  live : ∀ r ∈ Q, ¬Avail h' r
  fresh : ∀ r ∈ Q, Avail h r
  frame : Frame h [] h'

theorem mergeArr_spec {E : Env} {f : Nat} {ys : List Val} {qs : List (Option Ptr)} {G : List Ptr} (sy : SettledL ys) :
    ∀ (xs : List Val) (ps : List (Option Ptr)) (h : Heap) (F : List Ptr), Inv h → RepL h.mem xs ps F → F.Nodup → (∀ r ∈ F, ¬Avail h r) →
      RepL h.mem ys qs G → (∀ r ∈ G, ¬Avail h r) → SettledL xs → Copyable h F → noNilL xs = true → heightL xs ≤ f →
      (∀ x ∈ xs, ∀ y ∈ ys, ∃ b, eqVal E x y = .ok b) →
      ∃ rs h' Q, mergeArr E f h qs ps = .ok (rs, h') ∧ Added h rs h' (cloneValL (newOnes E ys xs)) Q
  | [], ps, h, F, I, hr, _, _, _, _, _, _, _, _, _ => by
    obtain ⟨rfl, rfl⟩ := hr
    exact ⟨[], h, [], rfl, ⟨by simp [newOnes, cloneValL, RepL], by simp, by simp, by simp, Frame.refl I _⟩⟩
  | x :: xs, ps, h, F, I, hr, hn, hl, hG, hlG, sx, hc, hnn, hf, ht => by
    obtain ⟨p, ps, F1, F2, rfl, rfl, a1, a2⟩ := hr
    obtain ⟨hn1, hn2, hd⟩ := List.nodup_append.1 hn
    simp only [heightL] at hf
    simp only [noNilL, Bool.and_eq_true] at hnn
    have hm := memberL_spec (E := E) I a1 sx.1 (by omega : height x ≤ f) ys qs G hG sy (ht x (by simp))
    rw [mergeArr, hm]
    simp only [Res.bind_ok]
    have hl2 : ∀ r ∈ F2, ¬Avail h r := fun r hr => hl r (by simp [hr])
    generalize hb : (ys.all (fun y => match eqVal E x y with | .ok b => !b | _ => true)) = b
    cases b with
    | false =>
      simp only [Bool.not_false, if_true]
      have e : newOnes E ys (x :: xs) = newOnes E ys xs := by unfold newOnes; rw [List.filter_cons_of_neg]; simp [hb]
      rw [e]
      exact mergeArr_spec sy xs ps h F2 I a2 hn2 hl2 hG hlG sx.2 (fun r hr => hc r (by simp [hr])) hnn.2 (by omega) (fun x hx => ht x (by simp [hx]))
    | true =>
      simp only [Bool.not_true, Bool.false_eq_true, if_false]
      have e : newOnes E ys (x :: xs) = x :: newOnes E ys xs := by unfold newOnes; rw [List.filter_cons_of_pos]; simp [hb]
      rw [e]
      have ok := clone_spec f h p x F1 none (by simp) I a1 hn1 (fun r hr => hl r (by simp [hr])) (fun r hr => hc r (by simp [hr]))
      generalize clone f h p none = res at ok
      match res with
      | .err e => exact ok.elim
      | .panic => simp only [CloneOk, hnn.1] at ok; cases ok
      | .loop => simp only [CloneOk] at ok; omega
      | .ok (q, h1) =>
        obtain ⟨-, Q1, M⟩ := ok
        have ih := mergeArr_spec (E := E) (f := f) (qs := qs) (G := G) sy xs ps h1 F2 M.frame.inv (repL_frame_keep I M.frame a2 hl2 (by simp)) hn2
          (fun r hr => M.frame.not_avail (hl2 r hr)) (repL_frame_keep I M.frame hG hlG (by simp)) (fun r hr => M.frame.not_avail (hlG r hr)) sx.2
          (fun r hr => by rw [M.frame.mem r (repL_ge a2 r hr) (by simp) (hl2 r hr)]; exact hc r (by simp [hr])) hnn.2 (by omega) (fun x hx => ht x (by simp [hx]))
        obtain ⟨rs, h2, Q2, e2, A⟩ := ih
        simp only [Res.bind_ok, e2]
        refine ⟨q :: rs, h2, Q1 ++ Q2, rfl, ?_, ?_, ?_, ?_, ?_⟩
        · simp only [cloneValL, List.map_cons]
          exact ⟨some q, rs.map some, Q1, Q2, rfl, rfl, A.frame.rep_keep M.frame.inv M.good.rep M.good.live (by simp), A.rep⟩
        · refine List.nodup_append.2 ⟨M.good.nodup, A.nodup, ?_⟩
          rintro r r1 _ r2 rfl
          exact M.good.live r r1 (A.fresh r r2)
        · intro r hr
          rcases List.mem_append.1 hr with hr | hr
          · exact A.frame.not_avail (M.good.live r hr)
          · exact A.live r hr
        · intro r hr
          rcases List.mem_append.1 hr with hr | hr
          · exact M.fresh r hr
          · exact M.frame.avail r (A.fresh r hr)
        · exact M.frame.then A.frame

/-- `MergeWith` of two arrays. -/
theorem mergeWith_arr {E : Env} {f : Nat} {h : Heap} {p q : Ptr} {ys xs : List Val} {G F : List Ptr} (mf : Option MergeFunc) (g : Good h (some p) (.arr ys) G)
    (gw : Good h (some q) (.arr xs) F) (sy : SettledL ys) (sx : SettledL xs) (hc : Copyable h F) (hnn : noNilL xs = true) (hf : heightL xs ≤ f)
    (ht : ∀ x ∈ xs, ∀ y ∈ ys, ∃ b, eqVal E x y = .ok b) (hd : ∀ r ∈ F, r ∉ G) :
    ∃ h' G', mergeWith E mf f h (some p) (some q) = .ok h' ∧ Upd h G h' (some p) (.arr (ys ++ cloneValL (newOnes E ys xs))) G' := by
  obtain ⟨G0, rfl, p5, dp, mp, hp0, hnG, havp⟩ := g.arr_inv
  obtain ⟨F0, rfl, q5, dq, mq, hq0, hnF, havq⟩ := gw.arr_inv
  obtain ⟨rs, h1, Q, e, A⟩ := mergeArr_spec (E := E) (f := f) (qs := (h.mem p).arr) (G := G0) sy xs (h.mem q).arr h F0 g.inv mq hnF
    (fun r hr => gw.live r (by simp [hr])) mp (fun r hr => g.live r (by simp [hr])) sx (fun r hr => hc r (by simp [hr])) hnn hf ht
  have g1 : Good h1 (some p) (.arr ys) (p :: G0) := g.frame A.frame (by simp)
  have hm : h1.mem p = h.mem p := A.frame.mem p p5 (by simp) havp
  obtain ⟨G1, rfl', p5', dp', mp', hp0', hnG', havp'⟩ := g1.arr_inv
  cases rfl'
  have hQ : ∀ r ∈ Q, r ∉ p :: G0 := fun r hr hm => g.live r hm (A.fresh r hr)
  have u := arr_write (X := Q) (F' := G0 ++ Q) (xs' := ys ++ cloneValL (newOnes E ys xs)) g1
    (n := { h1.mem p with arr := (h1.mem p).arr ++ rs.map some }) dp' rfl (repL_append.2 ⟨_, _, G0, Q, rfl, rfl, mp', A.rep⟩)
    (List.nodup_append.2 ⟨hnG, A.nodup, fun r h1 _ h2 e => hQ r (e ▸ h2) (by simp [h1])⟩)
    (fun r hr => by
      rcases List.mem_append.1 hr with hr | hr
      · exact Or.inl ⟨by simp [hr], by rintro rfl; exact hp0 hr⟩
      · exact Or.inr hr)
    (fun r hr => ⟨by rintro rfl; exact hQ r hr (by simp), A.live r hr⟩)
  refine ⟨_, _, ?_, (g.upd_frame A.frame).trans u |>.absorb A.fresh⟩
  rw [mergeWith]
  simp only [dp, dq, VT.ord, ne_eq, not_true_eq_false, false_or, reduceCtorEq, if_false]
  rw [if_neg (by omega), e]
  rfl

/-! ## Objects -/

/-- The value is a nil pointer. -/
def isNilV : Val → Bool
  | .nil => true
  | _ => false

/-- A merge function that decides on path, old and new value only: `mf` in the memory, `ask` on the values. -/
def Asks (mf : Option MergeFunc) (ask : Option (Bytes → Val → Val → MergeOp)) : Prop :=
  match mf, ask with
  | none, none => True
  | some m, some a => ∀ (h : Heap) (path : Bytes) (x y : Option Ptr) (vx vy : Val) (F G : List Ptr), Good h x vx F → Good h y vy G → m h path x y = a path vx vy
  | _, _ => False

/-- What `mergeObject` does to the members of `v`, as long as it is not to combine a container, nil or shared constant (`none` when it is). -/
def mergeM (E : Env) (ask : Option (Bytes → Val → Val → MergeOp)) : Bytes → Bool → List (Bytes × Val) → List (Bytes × Val) → Option (Bool × List (Bytes × Val))
  | _, ku, kvs, [] => some (ku, kvs)
  | path, ku, kvs, (k, b) :: r =>
    let s := indexByName E ku kvs k
    match s.1 with
    | none => mergeM E ask path s.2.1 (s.2.2 ++ [(k, cloneVal b)]) r
    | some i =>
      match s.2.2[i]? with
      | none => none
      | some (_, old) =>
        let path := if ask.isSome then mergePath path k else path
        match (ask.map (fun a => a path old b)).getD .normal with
        | .custom => mergeM E ask path s.2.1 s.2.2 r
        | .replace => if isNilV old then none else mergeM E ask path s.2.1 (s.2.2.modify i (fun kv => (kv.1, cloneVal b))) r
        | .normal =>
          if 2 ≤ old.vt.ord ∧ old.vt.ord ≤ 9 then mergeM E ask path s.2.1 (s.2.2.modify i (fun kv => (kv.1, .arr [cloneVal old, cloneVal b]))) r
          else none

/-- A member of an object. -/
theorem Good.member {h : Heap} {q : Ptr} {ku : Bool} {kvs : List (Bytes × Val)} {G : List Ptr} (g : Good h (some q) (.obj ku kvs) G) {i : Nat} {k : Bytes} {x : Val}
    (hi : kvs[i]? = some (k, x)) :
    ∃ b Gi, (h.mem q).kvs[i]? = some (k, b) ∧ Good h b x Gi ∧ (∀ r ∈ Gi, r ∈ G) ∧
      ∀ X h' x' Gi', UpdX X h Gi h' b x' Gi' → (∀ r ∈ X, r ∉ G) → ∃ G', UpdX X h G h' (some q) (.obj ku (kvs.modify i (fun kv => (kv.1, x')))) G' := by
  obtain ⟨b, Gi, hb, gi, hs, hu⟩ := g.kid (i := i) (x := x) (by simp [Val.kids, hi])
  refine ⟨b, Gi, ?_, gi, hs, fun X h' x' Gi' u hX => hu X h' x' Gi' u hX⟩
  obtain ⟨G0, -, -, hdt, -, hm, -⟩ := g.obj_inv
  rw [kids_obj hdt] at hb
  have hk := (repM_iff.1 hm).1
  have h1 : ((h.mem q).kvs.map Prod.fst)[i]? = some k := by rw [hk]; simp [hi]
  simp only [List.getElem?_map, Option.map_eq_some_iff] at h1 hb
  obtain ⟨⟨a, b'⟩, e1, e2⟩ := h1
  obtain ⟨y, e3, e4⟩ := hb
  rw [e1] at e3
  cases e3
  simp only at e2 e4
  subst e2 e4
  exact e1

theorem clone_ok {f : Nat} {h : Heap} {a : Option Ptr} {v : Val} {F : List Ptr} (g : Good h a v F) (hF : Copyable h F) (hn : noNil v = true) (hf : height v ≤ f) :
    ∃ q h' Q, clone f h a none = .ok (q, h') ∧ Made h q h' (cloneVal v) Q := by
  have ok := g.clone f none (by simp) hF
  generalize clone f h a none = res at ok
  match res with
  | .err e => exact ok.elim
  | .panic => simp only [CloneOk, hn] at ok; cases ok
  | .loop => simp only [CloneOk] at ok; omega
  | .ok (q, h1) => obtain ⟨-, Q, M⟩ := ok; exact ⟨q, h1, Q, rfl, M⟩

theorem heightM_mem {k : Bytes} {x : Val} : ∀ {kvs : List (Bytes × Val)}, (k, x) ∈ kvs → height x ≤ heightM kvs
  | [], h => by cases h
  | (k', y) :: kvs, h => by
    simp only [heightM]
    rcases List.mem_cons.1 h with h | h
    · cases h; omega
    · have := heightM_mem h; omega

theorem noNilM_mem {k : Bytes} {x : Val} : ∀ {kvs : List (Bytes × Val)}, (k, x) ∈ kvs → noNilM kvs = true → noNil x = true
  | [], h, _ => by cases h
  | (k', y) :: kvs, h, hn => by
    simp only [noNilM, Bool.and_eq_true] at hn
    rcases List.mem_cons.1 h with h | h
    · cases h; exact hn.1
    · exact noNilM_mem h hn.2

theorem scalar_leaf {v : Val} (h : 2 ≤ v.vt.ord ∧ v.vt.ord ≤ 9) (hn : v ≠ .nil) :
    Val.isLeaf v = true ∧ noNil v = true ∧ height v = 1 ∧ v.vt ≠ .object ∧ v.vt ≠ .array ∧ v.vt ≠ .null ∧ v.vt ≠ .true ∧ v.vt ≠ .false ∧ v.vt ≠ .nan ∧ v.vt ≠ .inf := by
  cases v <;> simp [Val.vt, VT.ord] at h <;> simp [Val.isLeaf, noNil, height, Val.vt] <;> contradiction

theorem modify_same {kvs : List (Bytes × Val)} {j : Nat} {k : Bytes} {x : Val} (h : kvs[j]? = some (k, x)) : kvs.modify j (fun kv => (kv.1, x)) = kvs := by
  apply List.ext_getElem?
  intro i
  rw [List.getElem?_modify]
  by_cases hij : j = i
  · subst hij; simp [h]
  · simp [hij]

/-- `mergeObject` from member `i` of `w` on. -/
theorem mergeObject_spec (E : Env) {q : Ptr} {p : Ptr} {ku' : Bool} {kvs' : List (Bytes × Val)} {G : List Ptr} (hnn : noNilM kvs' = true)
    {mf : Option MergeFunc} {ask : Option (Bytes → Val → Val → MergeOp)} (hq : Asks mf ask) :
    ∀ (r : List (Bytes × Val)) (f i : Nat) (h : Heap) (path : Bytes) (ku : Bool) (kvs : List (Bytes × Val)) (F : List Ptr) (ku2 : Bool) (kvs2 : List (Bytes × Val)),
      kvs'.drop i = r → r.length + heightM kvs' + 2 ≤ f → Good h (some p) (.obj ku kvs) F → Good h (some q) (.obj ku' kvs') G → (∀ x ∈ G, x ∉ F) → Copyable h G →
      mergeM E ask path ku kvs r = some (ku2, kvs2) →
      ∃ h' F', mergeObject E mf f h path p q i = .ok h' ∧ Upd h F h' (some p) (.obj ku2 kvs2) F' := by
  intro r
  induction r with
  | nil =>
    intro f i h path ku kvs F ku2 kvs2 hr hf g gw hd hc e
    cases e
    obtain ⟨f, rfl⟩ : ∃ f', f = f' + 1 := ⟨f - 1, by omega⟩
    obtain ⟨G0, -, -, hdt, -, hm, -⟩ := gw.obj_inv
    have hl := repM_length hm
    have : (h.mem q).kvs[i]? = none := by
      simp only [List.drop_eq_nil_iff] at hr
      simp; omega
    exact ⟨h, F, by simp [mergeObject, this], g.upd_refl⟩
  | cons kb r ih =>
    obtain ⟨k, b⟩ := kb
    intro f i h path ku kvs F ku2 kvs2 hr hf g gw hd hc e
    obtain ⟨f, rfl⟩ : ∃ f', f = f' + 1 := ⟨f - 1, by omega⟩
    have hi : kvs'[i]? = some (k, b) := by
      have := congrArg (fun l => l[0]?) hr
      simpa using this
    have hr' : kvs'.drop (i + 1) = r := by rw [← List.drop_drop, hr]; rfl
    have hmem : (k, b) ∈ kvs' := List.mem_of_getElem? hi
    have hhb := heightM_mem hmem
    have hnb := noNilM_mem hmem hnn
    simp only [List.length_cons] at hf
    obtain ⟨eidx, u1, -, -⟩ := objIndex_upd E g k
    obtain ⟨b0, _, hb0, -⟩ := gw.member hi
    rw [mergeObject]
    simp only [hb0]
    have gw1 := gw.frame u1.frame hd
    obtain ⟨h1, eh1⟩ : ∃ h1, h1 = (objIndex E h p k).2 := ⟨_, rfl⟩
    rw [← eh1] at u1 gw1 ⊢
    obtain ⟨bp, Gi, hbp, gb, hGi, -⟩ := gw1.member hi
    have hkeep : ∀ {h2 : Heap} {F2 : List Ptr} {v2 : Val}, Upd h F h2 (some p) v2 F2 → Good h2 (some q) (.obj ku' kvs') G ∧ (∀ x ∈ G, x ∉ F2) ∧ Copyable h2 G := by
      intro h2 F2 v2 u
      refine ⟨gw.frame u.frame hd, ?_, ?_⟩
      · intro x hx hx2
        rcases u.sub x hx2 with h | h | h
        · exact hd x hx h
        · cases h
        · exact gw.live x hx h
      · intro x hx
        rw [u.frame.mem x (rep_ge gw.rep x hx) (hd x hx) (gw.live x hx)]
        exact hc x hx
    obtain ⟨gw1', hd1, hc1⟩ := hkeep u1
    simp only [mergeM] at e
    simp only [hbp, Option.map_some, Option.getD_some, Option.bind_some]
    rw [show (objIndex E h p k).1 = (indexByName E ku kvs k).1 from eidx]
    have hnone := indexByName_none E ku kvs k
    rcases hix : indexByName E ku kvs k with ⟨j, ku1, kvs1⟩
    rw [hix] at e u1 hnone
    simp only at e u1 hnone
    cases j with
    | none =>
      dsimp only
      obtain ⟨o, h2, Q, ec, M⟩ := clone_ok gb (fun x hx => hc1 x (hGi x hx)) hnb (by omega : height b ≤ f)
      rw [ec]
      simp only [Res.bind_ok]
      have u2 := UpdX.trans u1 (u1.good.upd_frame M.frame)
      obtain ⟨F3, u3⟩ := setKeyValue_obj E u2.good k M.good (fun x hx hF => u1.good.live x hF (M.fresh x hx))
      have u3' := u2.trans u3 |>.absorb (fun x hx => u1.frame.avail x (M.fresh x hx))
      have ep : objPut E ku1 kvs1 k (cloneVal b) = .obj ku1 (kvs1 ++ [(k, cloneVal b)]) := by
        have hk1 : ku1 = true := hnone rfl
        subst hk1
        have h1 : (indexByName E ku kvs k).1 = none := by rw [hix]
        have h2 : indexByName E true kvs1 k = (none, true, kvs1) := by
          have : findKey E kvs1 k = none := by
            have h3 : findKey E (unescKeys E ku kvs) k = none ∧ kvs1 = unescKeys E ku kvs := by
              unfold indexByName at hix
              split at hix
              · split at hix
                · simp at hix
                · simp only [Prod.mk.injEq] at hix; exact ⟨hix.1, hix.2.2.symm⟩
              · simp only [Prod.mk.injEq] at hix; exact ⟨hix.1, hix.2.2.symm⟩
            rw [h3.2]; exact h3.1
          simp [indexByName, unescKeys, this]
        simp [objPut, setKeyValueObj, h2]
      rw [ep] at u3'
      obtain ⟨gw3, hd3, hc3⟩ := hkeep u3'
      obtain ⟨h', F', e4, u4⟩ := ih f (i + 1) _ path _ _ F3 ku2 kvs2 hr' (by omega) u3'.good gw3 hd3 hc3 e
      exact ⟨h', F', e4, u3'.trans u4⟩
    | some j =>
      dsimp only
      cases hj : kvs1[j]? with
      | none => simp only [hj] at e; cases e
      | some kv =>
        obtain ⟨key, old⟩ := kv
        simp only [hj] at e
        obtain ⟨ap, Fj, hap, ga, hFj, hup⟩ := u1.good.member hj
        simp only [hap, Option.bind_some]
        have hp1 : mf.isSome = ask.isSome := by
          unfold Asks at hq
          cases mf <;> cases ask <;> simp at hq ⊢
        have hp2 : ∀ path', (mf.map (fun g => g h1 path' ap bp)).getD .normal = (ask.map (fun a => a path' old b)).getD .normal := by
          intro path'
          unfold Asks at hq
          cases mf <;> cases ask <;> simp at hq ⊢
          exact hq _ _ _ _ _ _ _ _ ga gb
        rw [hp1]
        generalize (if ask.isSome = true then mergePath path k else path) = path' at e ⊢
        rw [hp2]
        cases hop : (ask.map (fun a => a path' old b)).getD .normal with
        | custom =>
          simp only [hop] at e ⊢
          exact (ih f (i + 1) _ path' _ _ _ ku2 kvs2 hr' (by omega) u1.good gw1' hd1 hc1 e).imp fun h' ⟨F', e4, u4⟩ => ⟨F', e4, u1.trans u4⟩
        | replace =>
          simp only [hop] at e ⊢
          cases ap with
          | none =>
            obtain ⟨rfl, -⟩ := rep_none ga.rep
            simp [isNilV] at e
          | some a =>
            have hn : isNilV old = false := by
              have := rep_ne_nil ga.rep
              cases old <;> first | rfl | exact absurd rfl this
            simp only [hn, Bool.false_eq_true, if_false] at e ⊢
            have hlt : j < kvs1.length := (List.getElem?_eq_some_iff.1 hj).1
            obtain ⟨x2, F2, u2⟩ : ∃ x2 F2, Upd h1 F (reset h1 a .null) (some p) (.obj ku1 (kvs1.modify j (fun kv => (kv.1, x2)))) F2 := by
              by_cases ha : 5 ≤ a
              · obtain ⟨F2, u2⟩ := hup _ _ _ _ (reset_upd ga ha .null) (by simp)
                exact ⟨_, F2, u2⟩
              · have := u1.good.upd_refl
                rw [← modify_same hj] at this
                rw [show reset h1 a .null = h1 by simp [reset, shared_iff.2 (by omega : a < 5)]]
                exact ⟨old, _, this⟩
            have u2' := u1.trans u2
            obtain ⟨gw2, hd2, hc2⟩ := hkeep u2'
            have gb2 := gb.frame u2.frame (fun x hx => hd1 x (hGi x hx))
            obtain ⟨o, h3, Q, ec, M⟩ := clone_ok gb2 (fun x hx => hc2 x (hGi x hx)) hnb (by omega : height b ≤ f)
            rw [ec]
            simp only [Res.bind_ok]
            have u3 := u2'.trans (u2'.good.upd_frame M.frame)
            obtain ⟨F4, u4⟩ := obj_modify u3.good M.good (fun x hx hF => u2'.good.live x hF (M.fresh x hx)) (i := j) (by simpa using hlt)
            have u4' := (u3.trans u4).absorb (fun x hx => u2'.frame.avail x (M.fresh x hx))
            rw [modify_modify] at u4'
            obtain ⟨gw4, hd4, hc4⟩ := hkeep u4'
            obtain ⟨h', F', e5, u5⟩ := ih f (i + 1) _ path' _ _ F4 ku2 kvs2 hr' (by omega) u4'.good gw4 hd4 hc4 e
            exact ⟨h', F', e5, u4'.trans u5⟩
        | normal =>
        simp only [hop] at e ⊢
        split at e
        case isFalse => cases e
        rename_i hsc
        cases ap with
        | none =>
          obtain ⟨rfl, -⟩ := rep_none ga.rep
          simp [Val.vt, VT.ord] at hsc
        | some a =>
          obtain ⟨l1, l2, l3, l4, l5, l6, l7, l8, l9, l10⟩ := scalar_leaf hsc (rep_ne_nil ga.rep)
          have hda := rep_dt ga.rep
          have a5 : 5 ≤ a := leaf_ge ga.inv hda l6 l7 l8 l9 l10
          have hFa : Fj = [a] := by
            obtain ⟨a', ea, hf, -⟩ := (rep_leaf l1 _ _).1 ga.rep
            cases ea
            rw [hf]; simp [foot]; omega
          have hcp : Copyable h1 Fj := by
            intro x hx
            rw [hFa] at hx
            simp only [List.mem_singleton] at hx
            subst hx
            rw [hda]
            omega
          obtain ⟨o, h2, Q, ec, M⟩ := clone_ok ga hcp l2 (by omega : height old ≤ f)
          simp only [if_false, hda, l4, l5, or_self]
          rw [ec]
          simp only [Res.bind_ok]
          have ga2 := ga.upd_frame M.frame
          have u3 := UpdX.trans ga2 (reset_upd ga2.good a5 .array)
          simp only [blankVal] at u3
          have hQ : ∀ x ∈ Q, x ∉ [a] := by
            intro x hx hm
            simp only [List.mem_singleton] at hm
            subst hm
            exact ga.live x (by rw [hFa]; simp) (M.fresh x hx)
          have hQF : ∀ x ∈ Q, x ∉ Fj := fun x hx hF => ga.live x hF (M.fresh x hx)
          have gQ : Good (reset h2 a .array) (some o) (cloneVal old) Q := M.good.frame (reset_upd ga2.good a5 .array).frame hQF
          obtain ⟨F4, u4⟩ := setIndexValue_arr u3.good 0 gQ hQ
          have u4' := (u3.trans u4).absorb M.fresh
          have e0 : arrPut [] 0 (cloneVal old) = .arr [cloneVal old] := by simp [arrPut, inRange]
          rw [e0] at u4'
          have hdF : ∀ x ∈ Gi, x ∉ Fj := fun x hx hF => hd1 x (hGi x hx) (hFj x hF)
          have gb4 := gb.frame u4'.frame hdF
          obtain ⟨o2, h5, Q2, ec2, M2⟩ := clone_ok gb4 (fun x hx => by
            rw [u4'.frame.mem x (rep_ge gb.rep x hx) (hdF x hx) (gb.live x hx)]; exact hc1 x (hGi x hx)) hnb (by omega : height b ≤ f)
          rw [show (setIndexValue (reset h2 a .array) a 0 (some o)) = setIndexValue (reset h2 a VT.array) a 0 (some o) from rfl, ec2]
          simp only [Res.bind_ok]
          have u5 := u4'.trans (u4'.good.upd_frame M2.frame)
          obtain ⟨F6, u6⟩ := setIndexValue_arr u5.good 1 M2.good (fun x hx hF => u4'.good.live x hF (M2.fresh x hx))
          have u6' := (u5.trans u6).absorb (fun x hx => u4'.frame.avail x (M2.fresh x hx))
          have e1 : arrPut [cloneVal old] 1 (cloneVal b) = .arr [cloneVal old, cloneVal b] := by simp [arrPut, inRange]
          rw [e1] at u6'
          obtain ⟨F7, u7⟩ := hup _ _ _ _ u6' (by simp)
          have u7' := u1.trans u7
          obtain ⟨gw7, hd7, hc7⟩ := hkeep u7'
          obtain ⟨h', F', e8, u8⟩ := ih f (i + 1) _ path' _ _ F7 ku2 kvs2 hr' (by omega) u7'.good gw7 hd7 hc7 e
          exact ⟨h', F', e8, u7'.trans u8⟩

end Dxs.Heap
