import Verif.Tree.Exact

/-!
# Programs in memory are programs on trees
-/

namespace Dxs.Heap

/-- The variables hold these trees. -/
def Holds (s : St) (T : Trees) : Prop := ∀ i, ∃ F, Rep s.heap.mem (T i) (s.var i) F

theorem Holds.init (grow : Nat → Nat) : Holds (St.init grow) (fun _ => .nil) := fun _ => ⟨[], rfl, rfl⟩

theorem trees_put_same (T : Trees) (i : Nat) (v : Val) : T.put i v i = v := by simp [Trees.put]
theorem trees_put_ne (T : Trees) {i k : Nat} (v : Val) (hk : k ≠ i) : T.put i v k = T k := by simp [Trees.put, hk]

section
variable {s s' : St} {L L' : Nat → Option Live} {T T' : Trees}

/-- A variable that holds something holds a proper tree. -/
theorem Holds.good (hT : Holds s T) (S : Sound s L) {i : Nat} {p : Ptr} (hp : s.var i = some p) :
    ∃ F, Good s.heap (some p) (T i) F ∧ ((p < 5 ∧ F = []) ∨ ∃ x, L i = some x ∧ x.p = p ∧ x.F = F) := by
  obtain ⟨F, hr⟩ := hT i
  rw [hp] at hr
  rcases S.vsome i p hp with ⟨h5, -⟩ | ⟨x, hx, rfl⟩
  · obtain ⟨w, g⟩ := const_tree S.world.inv h5
    obtain ⟨rfl, rfl⟩ := rep_det hr g.rep
    exact ⟨[], g, Or.inl ⟨h5, rfl⟩⟩
  · obtain ⟨w, g⟩ := (S.world.held i x hx).good
    obtain ⟨rfl, rfl⟩ := rep_det hr g.rep
    exact ⟨_, g, Or.inr ⟨x, hx, rfl, rfl⟩⟩

/-- What is not mentioned stays. -/
theorem Holds.keep (hT : Holds s T) (S : Sound s L) (I' : Inv s'.heap) {k : Nat} (hk : Keeps s s' L L' k) : ∃ F, Rep s'.heap.mem (T k) (s'.var k) F := by
  rw [hk.var]
  cases hp : s.var k with
  | none =>
    obtain ⟨F, hr⟩ := hT k
    rw [hp] at hr
    have : T k = .nil := by
      generalize T k = v at hr
      cases v <;> simp [Rep, RepLeaf] at hr ⊢
    rw [this]; exact ⟨[], rfl, rfl⟩
  | some p =>
    obtain ⟨F, g, h⟩ := hT.good S hp
    refine ⟨F, rep_frame g.rep ⟨fun q hq => ?_, fun _ hp => S.world.inv.dt_const I' hp⟩⟩
    rcases h with ⟨-, rfl⟩ | ⟨x, hx, -, rfl⟩
    · cases hq
    · exact hk.mem x hx q hq

/-- A statement, seen from the variables it changes. -/
theorem Holds.step (hT : Holds s T) (S : Sound s L) {E : Env} {c : Cmd} (e : c.exec E s = .ok s') (hk : ∀ k, k ∉ c.vars → T' k = T k)
    (hv : ∀ k ∈ c.vars, ∃ F, Rep s'.heap.mem (T' k) (s'.var k) F) : Holds s' T' := by
  obtain ⟨L', S', h⟩ := S.exec E c e
  intro k
  by_cases hc : k ∈ c.vars
  · exact hv k hc
  · rw [hk k hc]; exact hT.keep S S'.world.inv (h k hc)

theorem rep_nothing {m : Ptr → Node} {v : Val} {F : List Ptr} (h : Rep m v none F) : v = .nil := by
  cases v <;> simp [Rep, RepLeaf] at h ⊢

/-- Walking in memory and walking in the tree. -/
theorem Holds.walk (hT : Holds s T) (S : Sound s L) (i : Nat) (π : List Nat) :
    match s.walk i π with
    | .ok q => ∃ w G, T.walk i π = .ok w ∧ Good s.heap (some q) w G ∧ (∀ r ∈ G, ∃ x, L i = some x ∧ r ∈ x.F) ∧
        (5 ≤ q → ∃ x, L i = some x ∧ s.var i = some x.p ∧ (π = [] → x.p = q) ∧ (∀ r ∈ G, r ∈ x.F) ∧
          ∀ X h' w' F', UpdX X s.heap G h' (some q) w' F' → (∀ r ∈ X, r ∉ x.F) → ∃ R', UpdX X s.heap x.F h' (some x.p) (Val.subst (T i) π w') R')
    | .panic => T.walk i π = .panic
    | _ => False := by
  unfold St.walk Trees.walk
  cases hp : s.var i with
  | none =>
    obtain ⟨F, hr⟩ := hT i
    rw [hp] at hr
    rw [rep_nothing hr]
    cases π <;> rfl
  | some p =>
    obtain ⟨F, g, h⟩ := hT.good S hp
    simp only [Option.bind_some]
    cases hs : Val.sub (T i) π with
    | none =>
      cases hq : ptrAt s.heap.mem (some p) π with
      | none => rfl
      | some b =>
        obtain ⟨w, hw⟩ := rep_walk g.rep hq
        rw [hs] at hw; cases hw
    | some w =>
      obtain ⟨b, G, hb, gb, hsub, hup⟩ := g.inside hs
      rw [hb]
      cases b with
      | none => rw [rep_nothing gb.rep]
      | some q =>
        have hn := rep_ne_nil gb.rep
        refine ⟨w, G, ?_, gb, fun r hr => ?_, fun h5 => ?_⟩
        · cases w <;> first | exact absurd rfl hn | rfl
        · rcases h with ⟨-, rfl⟩ | ⟨x, hx, -, rfl⟩
          · cases hsub r hr
          · exact ⟨x, hx, hsub r hr⟩
        · rcases h with ⟨hl, rfl⟩ | ⟨x, hx, rfl, rfl⟩
          · cases hsub q (rep_mem gb.rep h5)
          · refine ⟨x, hx, rfl, ?_, hsub, hup⟩
            rintro rfl; cases hb; rfl

/-- The shared constants look like constants. -/
theorem const_isConst {h : Heap} {q : Ptr} {w : Val} {G : List Ptr} (g : Good h (some q) w G) (hq : q < 5) : isConst w = true := by
  have hd := g.inv.const q hq
  have h' := rep_dt g.rep
  have hn := rep_ne_nil g.rep
  have : q = 0 ∨ q = 1 ∨ q = 2 ∨ q = 3 ∨ q = 4 := by omega
  rw [h'] at hd
  unfold isConst
  rw [hd]
  rcases this with rfl | rfl | rfl | rfl | rfl <;> simp [constVT, nullP, trueP, falseP, nanP, infP, constOf, hn]

theorem skip_own {h : Heap} {q : Ptr} {w : Val} {G : List Ptr} (g : Good h (some q) w G) {o : Orc} (ho : o.own = !shared q) : o.skip w = shared q := by
  unfold Orc.skip
  rw [ho]
  by_cases hq : q < 5
  · simp [const_isConst g hq]
  · have : shared q = false := by
      cases h : shared q with
      | false => rfl
      | true => exact absurd (shared_iff.1 h) hq
    simp [this]

/-! ## Copying -/

theorem repL_heights {m : Ptr → Node} {f : Nat} (ih : ∀ {v a F}, Rep m v a F → copyable f m a = true → height v ≤ f) :
    ∀ {xs : List Val} {ps : List (Option Ptr)} {F : List Ptr}, RepL m xs ps F → ps.all (copyable f m) = true → heightL xs ≤ f
  | [], _, _, _, _ => Nat.zero_le _
  | x :: xs, _, _, h, hc => by
    obtain ⟨_, _, F1, F2, rfl, rfl, h1, h2⟩ := h
    simp only [List.all_cons, Bool.and_eq_true] at hc
    have := ih h1 hc.1
    have := repL_heights ih h2 hc.2
    simp only [heightL]; omega

theorem heightM_eq : ∀ kvs : List (Bytes × Val), heightM kvs = heightL (kvs.map Prod.snd)
  | [] => rfl
  | (_, v) :: kvs => by simp [heightM, heightL, heightM_eq kvs]

theorem noConstM_eq : ∀ kvs : List (Bytes × Val), noConstM kvs = noConstL (kvs.map Prod.snd)
  | [] => rfl
  | (_, v) :: kvs => by simp [noConstM, noConstL, noConstM_eq kvs]

theorem copyable_height {m : Ptr → Node} : ∀ {f : Nat} {v : Val} {a : Option Ptr} {F : List Ptr}, Rep m v a F → copyable f m a = true → height v ≤ f
  | 0, _, _, _, _, hc => by cases hc
  | f + 1, v, a, F, hr, hc => by
    cases v with
    | obj ku kvs =>
      obtain ⟨p, F0, rfl, h5, rfl, hdt, -, hm⟩ := hr
      have h5' : ¬ p < 5 := by omega
      simp only [copyable, h5', decide_false, Bool.false_or, Bool.and_eq_true, decide_eq_true_eq, kids_obj hdt] at hc
      have := repL_heights (copyable_height (f := f)) (repM_iff.1 hm).2 hc.2
      simp only [height, heightM_eq]; omega
    | arr xs =>
      obtain ⟨p, F0, rfl, h5, rfl, hdt, hm⟩ := hr
      have h5' : ¬ p < 5 := by omega
      simp only [copyable, h5', decide_false, Bool.false_or, Bool.and_eq_true, decide_eq_true_eq, kids_arr hdt] at hc
      have := repL_heights (copyable_height (f := f)) hm hc.2
      simp only [height]; omega
    | _ => simp [height]

theorem repL_copyable {m : Ptr → Node} {f : Nat} (ih : ∀ {v a F}, Rep m v a F → height v ≤ f → noConst v = true → copyable f m a = true) :
    ∀ {xs : List Val} {ps : List (Option Ptr)} {F : List Ptr}, RepL m xs ps F → heightL xs ≤ f → noConstL xs = true → ps.all (copyable f m) = true
  | [], _, _, h, _, _ => by obtain ⟨rfl, -⟩ := h; rfl
  | x :: xs, _, _, h, hh, hn => by
    obtain ⟨_, _, F1, F2, rfl, rfl, h1, h2⟩ := h
    simp only [heightL] at hh
    simp only [noConstL, Bool.and_eq_true] at hn
    simp only [List.all_cons, Bool.and_eq_true]
    exact ⟨ih h1 (by omega) hn.1, repL_copyable ih h2 (by omega) hn.2⟩

theorem height_copyable {m : Ptr → Node} : ∀ {f : Nat} {v : Val} {a : Option Ptr} {F : List Ptr}, Rep m v a F → height v ≤ f → noConst v = true → copyable f m a = true
  | 0, v, _, _, _, hh, _ => by cases v <;> simp [height] at hh
  | f + 1, v, a, F, hr, hh, hn => by
    have hd := fun p (e : a = some p) => rep_dt (e ▸ hr)
    cases v with
    | nil => obtain ⟨rfl, -⟩ := hr; rfl
    | obj ku kvs =>
      obtain ⟨p, F0, rfl, h5, rfl, hdt, -, hm⟩ := hr
      simp only [height, heightM_eq] at hh
      rw [noConst, noConstM_eq] at hn
      have := repL_copyable (height_copyable (f := f)) (repM_iff.1 hm).2 (by omega) hn
      simp [copyable, kids_obj hdt, this, hdt, VT.ord]
    | arr xs =>
      obtain ⟨p, F0, rfl, h5, rfl, hdt, hm⟩ := hr
      simp only [height] at hh
      rw [noConst] at hn
      have := repL_copyable (height_copyable (f := f)) hm (by omega) hn
      simp [copyable, kids_arr hdt, this, hdt, VT.ord]
    | tru | fls | nan | inf => cases hn
    | _ =>
      obtain ⟨p, rfl, -, -⟩ := hr
      have hd := hd p rfl
      simp only [Val.vt] at hd
      simp [copyable, Node.kids, hd, VT.ord]

theorem copies_mixed {m : Ptr → Node} {f : Nat} {v : Val} {a : Option Ptr} {F : List Ptr} (hr : Rep m v a F) {o : Orc} (ho : o.mixed = !copyable f m a) :
    o.copies f v = copyable f m a := by
  unfold Orc.copies
  rw [ho]
  cases hc : copyable f m a with
  | true => simp [copyable_height hr hc]
  | false =>
    by_cases hh : height v ≤ f
    · cases hn : noConst v with
      | false => simp
      | true => rw [height_copyable hr hh hn] at hc; cases hc
    · simp [hh]

/-! ## The statements -/

theorem newCached_rep {h : Heap} (I : Inv h) (t : VT) (pick : Option Nat) :
    ∃ c F, Rep (newCacheValue h t pick).2.mem (blankVal t c) (some (newCacheValue h t pick).1) F := by
  unfold newCacheValue
  cases ht : constOf t with
  | some p =>
    dsimp only
    obtain ⟨w, g⟩ := const_tree I (constOf_const ht).1
    refine ⟨0, [], ?_⟩
    have hd := rep_dt g.rep
    rw [I.const p (constOf_const ht).1, (constOf_const ht).2] at hd
    have hn := rep_ne_nil g.rep
    have : w = blankVal t 0 := by
      cases t <;> simp [constOf] at ht <;> cases w <;> simp [Val.vt] at hd hn ⊢ <;> rfl
    rw [← this]; exact g.rep
  | none =>
    dsimp only
    have I1 := I.getCache pick
    generalize Heap.getCache h pick = r at I1
    obtain ⟨c, h1⟩ := r
    have A := getValue_spec I1.1 (some c) t (by intro d hd; cases hd; exact I1.2)
    exact ⟨_, _, A.good.rep⟩

theorem newPlain_rep {h : Heap} (I : Inv h) (t : VT) :
    ∃ F, Rep (h.new { Node.zero with dt := t }).2.mem (blankVal t 0) (some (h.new { Node.zero with dt := t }).1) F := by
  obtain ⟨g, hw, hn, hge, hm, -⟩ := new_spec I { Node.zero with dt := t } (by simp [Node.zero])
  have A : Allocated h (h.new { Node.zero with dt := t }).1 (h.new { Node.zero with dt := t }).2 t := ⟨g, hw, hn, hge, by rw [hm]; exact ⟨rfl, rfl, rfl, rfl, rfl, rfl, rfl⟩⟩
  have := A.good.rep
  rw [hm] at this
  exact ⟨_, this⟩

/-- The outcome in memory is an outcome on trees. -/
def Refines (t : Orc → Res Trees) : Res St → Prop
  | .ok s' => ∃ o T', t o = .ok T' ∧ Holds s' T'
  | .panic => ∃ o, t o = .panic
  | _ => False

theorem Holds.create (hT : Holds s T) (S : Sound s L) {E : Env} {c : Cmd} {i : Nat} (hc : c.vars = [i]) {r : Ptr × Heap} (e : c.exec E s = .ok (s.store i r)) {v : Val} {F : List Ptr}
    (hr : Rep r.2.mem v (some r.1) F) : Holds (s.store i r) (T.put i v) := by
  refine hT.step S e (fun k hk => ?_) (fun k hk => ?_)
  · rw [hc] at hk; exact trees_put_ne T v (by simpa using hk)
  · rw [hc] at hk; simp at hk; subst hk
    refine ⟨F, ?_⟩
    rw [trees_put_same]
    simpa [St.store, assign_same] using hr

theorem Holds.change (hT : Holds s T) (S : Sound s L) {E : Env} {c : Cmd} {i : Nat} (hc : c.vars = [i]) {h' : Heap} (e : c.exec E s = .ok { s with heap := h' }) {v : Val}
    {p : Ptr} {F : List Ptr} (hp : s.var i = some p) (hr : Rep h'.mem v (some p) F) : Holds { s with heap := h' } (T.put i v) := by
  refine hT.step S e (fun k hk => ?_) (fun k hk => ?_)
  · rw [hc] at hk; exact trees_put_ne T v (by simpa using hk)
  · rw [hc] at hk; simp at hk; subst hk
    refine ⟨F, ?_⟩
    rw [trees_put_same]
    simpa [hp] using hr

theorem Holds.move (hT : Holds s T) (S : Sound s L) {E : Env} {c : Cmd} {i j : Nat} (hij : i ≠ j) (hc : c.vars = [i, j]) {h' : Heap}
    (e : c.exec E s = .ok ⟨h', assign s.var j none⟩) {v : Val} {p : Ptr} {F : List Ptr} (hp : s.var i = some p) (hr : Rep h'.mem v (some p) F) :
    Holds ⟨h', assign s.var j none⟩ ((T.put i v).put j .nil) := by
  refine hT.step S e (fun k hk => ?_) (fun k hk => ?_)
  · rw [hc] at hk; simp at hk
    rw [trees_put_ne _ _ hk.2, trees_put_ne _ _ hk.1]
  · by_cases hj : k = j
    · subst hj
      rw [trees_put_same]
      exact ⟨[], by simp [Rep, assign_same]⟩
    · rw [hc] at hk; simp [hj] at hk; subst hk
      refine ⟨F, ?_⟩
      rw [trees_put_ne _ _ hj, trees_put_same]
      simpa [assign_ne _ _ hj, hp] using hr

/-- What is moved, as a tree. -/
theorem Holds.part (hT : Holds s T) (S : Sound s L) (j : Nat) : ∃ G, Good s.heap (s.var j) (T j) G ∧ ∀ r ∈ G, ∃ y, L j = some y ∧ r ∈ y.F := by
  cases hp : s.var j with
  | none =>
    obtain ⟨F, hr⟩ := hT j
    rw [hp] at hr
    have := rep_nothing hr
    rw [this]
    exact ⟨[], ⟨S.world.inv, ⟨rfl, rfl⟩, by simp, by simp⟩, by simp⟩
  | some p =>
    obtain ⟨F, g, h⟩ := hT.good S hp
    refine ⟨F, g, fun r hr => ?_⟩
    rcases h with ⟨-, rfl⟩ | ⟨x, hx, -, rfl⟩
    · cases hr
    · exact ⟨x, hx, hr⟩

theorem addFrom_other {f : Nat} {h : Heap} {p q : Ptr} (h1 : (h.mem q).dt ≠ .object) (h2 : (h.mem q).dt ≠ .array) : Heap.addFrom f h p (some q) none = .ok h := by
  unfold Heap.addFrom
  dsimp only
  split
  · contradiction
  · contradiction
  · rfl

theorem addVal_none {v w : Val} (h : addVal v w = none) (hv : v ≠ .nil) (hw : w ≠ .nil) (e : v.vt = w.vt) : w.vt ≠ .object ∧ w.vt ≠ .array := by
  cases v <;> cases w <;> simp [Val.vt, addVal] at * <;> simp_all

theorem addVal_some {v w v' : Val} (h : addVal v w = some v') : v.vt = w.vt := by
  cases v <;> cases w <;> simp [Val.vt, addVal] at *

theorem Cmd.refine (hT : Holds s T) (S : Sound s L) (E : Env) (c : Cmd) : Refines (fun o => c.onTree E o T) (c.exec E s) := by
  have I := S.world.inv
  have ge : ∀ {q : Ptr}, shared q = false → 5 ≤ q := fun {q} h => Nat.le_of_not_lt (fun hl => by rw [shared_iff.2 hl] at h; cases h)
  cases c with
  | newValue i t =>
    obtain ⟨G, -, g, -⟩ := newValue_zero I t
    exact ⟨{}, _, rfl, hT.create (c := .newValue i t) (E := E) S rfl rfl g.rep⟩
  | newCached i t pick =>
    obtain ⟨c, F, hr⟩ := newCached_rep I t pick
    exact ⟨{ cell := c }, _, rfl, hT.create (c := .newCached i t pick) (E := E) S rfl rfl hr⟩
  | newObject i b pick =>
    have : ∃ F, Rep (Heap.newObject s.heap b pick).2.mem (.obj false []) (some (Heap.newObject s.heap b pick).1) F := by
      unfold Heap.newObject
      cases b
      · exact newPlain_rep I .object
      · obtain ⟨c, F, hr⟩ := newCached_rep I .object pick
        exact ⟨F, hr⟩
    obtain ⟨F, hr⟩ := this
    exact ⟨{}, _, rfl, hT.create (c := .newObject i b pick) (E := E) S rfl rfl hr⟩
  | newArray i b pick =>
    have : ∃ F, Rep (Heap.newArray s.heap b pick).2.mem (.arr []) (some (Heap.newArray s.heap b pick).1) F := by
      unfold Heap.newArray
      cases b
      · exact newPlain_rep I .array
      · obtain ⟨c, F, hr⟩ := newCached_rep I .array pick
        exact ⟨F, hr⟩
    obtain ⟨F, hr⟩ := this
    exact ⟨{}, _, rfl, hT.create (c := .newArray i b pick) (E := E) S rfl rfl hr⟩
  | act i π m =>
    have hw := hT.walk S i π
    obtain ⟨P, hP, ht⟩ : ∃ P : St → Prop, (∀ s', P s' → (Cmd.act i π m).exec E s = .ok s') ∧ (∀ s', (Cmd.act i π m).exec E s = .ok s' → P s') := ⟨_, fun _ h => h, fun _ h => h⟩
    simp only [Cmd.exec, Cmd.onTree] at ht ⊢
    generalize s.walk i π = r at hw ht ⊢
    match r with
    | .err _ => exact hw.elim
    | .loop => exact hw.elim
    | .panic => exact ⟨{}, by rw [hw]; rfl⟩
    | .ok q =>
      obtain ⟨w, G, hw, g, -, hu⟩ := hw
      simp only [Res.bind_ok, hw] at ht ⊢
      cases hs : shared q with
      | true => exact ⟨{ own := false }, T, by simp only [skip_own g (o := { own := false }) (by simp [hs]), hs]; rfl, hT⟩
      | false =>
        simp only [hs] at ht ⊢
        obtain ⟨x, hx, hp, -, hsub, hup⟩ := hu (ge hs)
        have hm := Mut.exact (E := E) g (ge hs) m
        generalize m.run E s.heap q = r at hm ht ⊢
        match r with
        | .err _ => exact hm.elim
        | .loop => exact hm.elim
        | .panic => exact ⟨{}, by simp only [skip_own g (o := {}) (by simp [hs]), hs]; rw [show m.onTree E _ w = .panic from hm _]; rfl⟩
        | .ok h' =>
          obtain ⟨c, v', F', e, u⟩ := hm
          obtain ⟨R', u'⟩ := hup [] h' v' F' u (by simp)
          refine ⟨{ cell := c }, T.put i (Val.subst (T i) π v'), by simp only [skip_own g (o := { cell := c }) (by simp [hs]), hs]; rw [show m.onTree E _ w = .ok v' from e]; rfl, ?_⟩
          exact hT.change S (c := .act i π m) (E := E) rfl (hP _ (ht _ rfl)) hp u'.good.rep
  | putKey i π k j =>
    have hw := hT.walk S i π
    obtain ⟨P, hP, ht⟩ : ∃ P : St → Prop, (∀ s', P s' → (Cmd.putKey i π k j).exec E s = .ok s') ∧ (∀ s', (Cmd.putKey i π k j).exec E s = .ok s' → P s') := ⟨_, fun _ h => h, fun _ h => h⟩
    simp only [Cmd.exec, Cmd.onTree] at ht ⊢
    generalize s.walk i π = r at hw ht ⊢
    match r with
    | .err _ => exact hw.elim
    | .loop => exact hw.elim
    | .panic => exact ⟨{}, by rw [hw]; rfl⟩
    | .ok q =>
      obtain ⟨w, G, hw, g, -, hu⟩ := hw
      simp only [Res.bind_ok, hw] at ht ⊢
      by_cases hs : (shared q || i == j) = true
      · rw [if_pos hs]
        exact ⟨{ own := !shared q }, T, by simp only [skip_own g (o := { own := !shared q }) rfl]; rw [if_pos hs], hT⟩
      · rw [if_neg hs] at ht ⊢
        have hs' := hs
        simp only [Bool.or_eq_true, not_or, beq_iff_eq, Bool.not_eq_true] at hs'
        obtain ⟨x, hx, hp, -, hsub, hup⟩ := hu (ge hs'.1)
        obtain ⟨Gj, gj, hj⟩ := hT.part S j
        have hd : ∀ r ∈ Gj, r ∉ x.F := fun r hr hx' => by
          obtain ⟨y, hy, hry⟩ := hj r hr
          exact (S.world.apart i j x y hs'.2 hx hy).nodes r hx' hry
        obtain ⟨F', u⟩ := setKeyValue_exact E g (ge hs'.1) k gj (fun r hr h => hd r hr (hsub r h))
        obtain ⟨R', u'⟩ := hup _ _ _ F' u hd
        refine ⟨{ own := !shared q }, _, by simp only [skip_own g (o := { own := !shared q }) rfl]; rw [if_neg hs], ?_⟩
        exact hT.move S (c := .putKey i π k j) (E := E) hs'.2 rfl (hP _ (ht _ rfl)) hp u'.good.rep
  | putIndex i π n j =>
    have hw := hT.walk S i π
    obtain ⟨P, hP, ht⟩ : ∃ P : St → Prop, (∀ s', P s' → (Cmd.putIndex i π n j).exec E s = .ok s') ∧ (∀ s', (Cmd.putIndex i π n j).exec E s = .ok s' → P s') := ⟨_, fun _ h => h, fun _ h => h⟩
    simp only [Cmd.exec, Cmd.onTree] at ht ⊢
    generalize s.walk i π = r at hw ht ⊢
    match r with
    | .err _ => exact hw.elim
    | .loop => exact hw.elim
    | .panic => exact ⟨{}, by rw [hw]; rfl⟩
    | .ok q =>
      obtain ⟨w, G, hw, g, -, hu⟩ := hw
      simp only [Res.bind_ok, hw] at ht ⊢
      by_cases hs : (shared q || i == j) = true
      · rw [if_pos hs]
        exact ⟨{ own := !shared q }, T, by simp only [skip_own g (o := { own := !shared q }) rfl]; rw [if_pos hs], hT⟩
      · rw [if_neg hs] at ht ⊢
        have hs' := hs
        simp only [Bool.or_eq_true, not_or, beq_iff_eq, Bool.not_eq_true] at hs'
        obtain ⟨x, hx, hp, -, hsub, hup⟩ := hu (ge hs'.1)
        obtain ⟨Gj, gj, hj⟩ := hT.part S j
        have hd : ∀ r ∈ Gj, r ∉ x.F := fun r hr hx' => by
          obtain ⟨y, hy, hry⟩ := hj r hr
          exact (S.world.apart i j x y hs'.2 hx hy).nodes r hx' hry
        obtain ⟨F', u⟩ := setIndexValue_exact g (ge hs'.1) n gj (fun r hr h => hd r hr (hsub r h))
        obtain ⟨R', u'⟩ := hup _ _ _ F' u hd
        refine ⟨{ own := !shared q }, _, by simp only [skip_own g (o := { own := !shared q }) rfl]; rw [if_neg hs], ?_⟩
        exact hT.move S (c := .putIndex i π n j) (E := E) hs'.2 rfl (hP _ (ht _ rfl)) hp u'.good.rep
  | clear i =>
    have hw := hT.walk S i []
    obtain ⟨P, hP, ht⟩ : ∃ P : St → Prop, (∀ s', P s' → (Cmd.clear i).exec E s = .ok s') ∧ (∀ s', (Cmd.clear i).exec E s = .ok s' → P s') := ⟨_, fun _ h => h, fun _ h => h⟩
    simp only [Cmd.exec, Cmd.onTree] at ht ⊢
    generalize s.walk i [] = r at hw ht ⊢
    match r with
    | .err _ => exact hw.elim
    | .loop => exact hw.elim
    | .panic => exact ⟨{}, by rw [hw]; rfl⟩
    | .ok q =>
      obtain ⟨w, G, hw, g, -, hu⟩ := hw
      have hwi : w = T i := by
        unfold Trees.walk at hw
        simp only [Val.sub] at hw
        split at hw
        · cases hw
        · cases hw
        · rename_i h; cases h; cases hw; rfl
      simp only [Res.bind_ok, hw] at ht ⊢
      cases hs : shared q with
      | true =>
        have hc := const_isConst g (shared_iff.1 hs)
        have : clearVal w = w := by cases w <;> simp [isConst, Val.vt, constOf] at hc <;> rfl
        refine ⟨{}, T.put i (clearVal w), rfl, ?_⟩
        have e : T.put i (clearVal w) = T := by
          funext k
          by_cases hk : k = i
          · subst hk; rw [trees_put_same, this, hwi]
          · rw [trees_put_ne _ _ hk]
        rw [e]; exact hT
      | false =>
        simp only [hs] at ht ⊢
        obtain ⟨x, hx, hp, hpq, -, -⟩ := hu (ge hs)
        have hpq := hpq rfl
        subst hpq
        obtain ⟨v, gv⟩ := (S.world.held i x hx).good
        obtain ⟨rfl, rfl⟩ := rep_det gv.rep g.rep
        refine ⟨{}, T.put i (clearVal v), rfl, ?_⟩
        exact hT.change S (c := .clear i) (E := E) rfl (hP _ (ht _ rfl)) hp ((S.world.clear hx).2 _ gv.rep)
  | free i n =>
    have hw := hT.walk S i []
    obtain ⟨P, hP, ht⟩ : ∃ P : St → Prop, (∀ s', P s' → (Cmd.free i n).exec E s = .ok s') ∧ (∀ s', (Cmd.free i n).exec E s = .ok s' → P s') := ⟨_, fun _ h => h, fun _ h => h⟩
    simp only [Cmd.exec, Cmd.onTree] at ht ⊢
    generalize s.walk i [] = r at hw ht ⊢
    match r with
    | .err _ => exact hw.elim
    | .loop => exact hw.elim
    | .panic => exact ⟨{}, by rw [hw]; rfl⟩
    | .ok q =>
      obtain ⟨w, G, hw, g, -, hu⟩ := hw
      simp only [Res.bind_ok, hw] at ht ⊢
      cases hs : shared q with
      | true => exact ⟨{ own := false }, T, by simp only [skip_own g (o := { own := false }) (by simp [hs]), hs]; rfl, hT⟩
      | false =>
        simp only [hs] at ht ⊢
        refine ⟨{}, T.put i .nil, by simp only [skip_own g (o := {}) (by simp [hs]), hs]; rfl, ?_⟩
        refine hT.step S (c := .free i n) (E := E) (hP _ (ht _ rfl)) (fun k hk => trees_put_ne _ _ (by simpa [Cmd.vars] using hk)) (fun k hk => ?_)
        simp [Cmd.vars] at hk; subst hk
        rw [trees_put_same]
        exact ⟨[], by simp [Rep, assign_same]⟩
  | forget i =>
    refine ⟨{}, T.put i .nil, rfl, ?_⟩
    refine hT.step S (c := .forget i) (E := E) rfl (fun k hk => trees_put_ne _ _ (by simpa [Cmd.vars] using hk)) (fun k hk => ?_)
    simp [Cmd.vars] at hk; subst hk
    rw [trees_put_same]
    exact ⟨[], by simp [Rep, assign_same]⟩
  | clone i j π b pick f =>
    have hw := hT.walk S j π
    obtain ⟨P, hP, ht⟩ : ∃ P : St → Prop, (∀ s', P s' → (Cmd.clone i j π b pick f).exec E s = .ok s') ∧ (∀ s', (Cmd.clone i j π b pick f).exec E s = .ok s' → P s') := ⟨_, fun _ h => h, fun _ h => h⟩
    simp only [Cmd.exec, Cmd.onTree] at ht ⊢
    generalize s.walk j π = r at hw ht ⊢
    match r with
    | .err _ => exact hw.elim
    | .loop => exact hw.elim
    | .panic => exact ⟨{}, by rw [hw]; rfl⟩
    | .ok q =>
      obtain ⟨w, G, hw, g, -, -⟩ := hw
      simp only [Res.bind_ok, hw] at ht ⊢
      cases hc : copyable f s.heap.mem (some q) with
      | false => exact ⟨{ mixed := true }, T, by simp only [copies_mixed g.rep (o := { mixed := true }) (f := f) (by simp [hc]), hc]; rfl, hT⟩
      | true =>
        simp only [hc, if_true] at ht ⊢
        have hG : Copyable s.heap G := copyable_rep g.rep hc
        have hh := copyable_height g.rep hc
        have ok : match cloneTop f s.heap q b pick with
            | .ok r => noNil w = true ∧ ∃ F', Rep r.2.mem (cloneVal w) (some r.1) F'
            | .panic => noNil w = false
            | _ => False := by
          unfold cloneTop
          cases b with
          | false =>
            have ok := g.clone f none (by simp) hG
            simp only [Bool.false_eq_true, if_false]
            generalize Heap.clone f s.heap (some q) none = r at ok
            match r with
            | .err _ => exact ok
            | .loop => simp only [CloneOk] at ok; omega
            | .panic => exact ok
            | .ok (r, h') => obtain ⟨h1, F', M⟩ := ok; exact ⟨h1, F', M.good.rep⟩
          | true =>
            obtain ⟨g1, hlt, hk⟩ := g.cached pick
            simp only [if_true]
            generalize Heap.getCache s.heap pick = rc at g1 hlt hk
            obtain ⟨c, h1⟩ := rc
            have ok := g1.clone f (some c) (by intro d hd; cases hd; exact hlt) (fun r hr => by rw [hk r hr]; exact hG r hr)
            dsimp only
            generalize Heap.clone f h1 (some q) (some c) = r at ok
            match r with
            | .err _ => exact ok
            | .loop => simp only [CloneOk] at ok; omega
            | .panic => exact ok
            | .ok (r, h') => obtain ⟨h1, F', M⟩ := ok; exact ⟨h1, F', M.good.rep⟩
        generalize cloneTop f s.heap q b pick = r at ok ht ⊢
        have hcp : (({} : Orc).copies f w) = true := by rw [copies_mixed g.rep (o := {}) (f := f) (by simp [hc]), hc]
        match r with
        | .err _ => exact ok.elim
        | .loop => exact ok.elim
        | .panic => exact ⟨{}, by simp only [hcp]; rw [if_neg (by simp), if_neg (by simp [show noNil w = false from ok])]⟩
        | .ok r =>
          obtain ⟨h1, F', hr⟩ := ok
          refine ⟨{}, T.put i (cloneVal w), by simp only [hcp]; rw [if_neg (by simp), if_pos h1], ?_⟩
          exact hT.create S (c := .clone i j π b pick f) (E := E) rfl (hP _ (ht _ rfl)) hr
  | copyFrom i π j ρ f =>
    have hw := hT.walk S i π
    have hw' := hT.walk S j ρ
    obtain ⟨P, hP, ht⟩ : ∃ P : St → Prop, (∀ s', P s' → (Cmd.copyFrom i π j ρ f).exec E s = .ok s') ∧ (∀ s', (Cmd.copyFrom i π j ρ f).exec E s = .ok s' → P s') := ⟨_, fun _ h => h, fun _ h => h⟩
    simp only [Cmd.exec, Cmd.onTree] at ht ⊢
    generalize s.walk i π = r at hw ht ⊢
    match r with
    | .err _ => exact hw.elim
    | .loop => exact hw.elim
    | .panic => exact ⟨{}, by rw [hw]; rfl⟩
    | .ok p =>
      obtain ⟨v, F, hw, g, -, hu⟩ := hw
      simp only [Res.bind_ok, hw] at ht ⊢
      generalize s.walk j ρ = r at hw' ht ⊢
      match r with
      | .err _ => exact hw'.elim
      | .loop => exact hw'.elim
      | .panic => exact ⟨{}, by rw [hw']; rfl⟩
      | .ok q =>
        obtain ⟨w, G, hw', gw, hG, -⟩ := hw'
        simp only [Res.bind_ok, hw'] at ht ⊢
        by_cases hs : (shared p || i == j || !copyable f s.heap.mem (some q)) = true
        · rw [if_pos hs]
          exact ⟨{ own := !shared p, mixed := !copyable f s.heap.mem (some q) }, T, by
            simp only [skip_own g (o := { own := !shared p, mixed := !copyable f s.heap.mem (some q) }) rfl,
              copies_mixed gw.rep (o := { own := !shared p, mixed := !copyable f s.heap.mem (some q) }) (f := f) rfl]; rw [if_pos hs], hT⟩
        · rw [if_neg hs] at ht ⊢
          have hs' := hs
          simp only [Bool.or_eq_true, not_or, beq_iff_eq, Bool.not_eq_true, Bool.not_eq_false'] at hs'
          obtain ⟨⟨hs1, hs2⟩, hc⟩ := hs'
          obtain ⟨x, hx, hp, -, hsub, hup⟩ := hu (ge hs1)
          have ok := copyFrom_spec g (ge hs1) gw (fun r hr hF => by
            obtain ⟨y, hy, hry⟩ := hG r hr
            exact (S.world.apart i j x y hs2 hx hy).nodes r (hsub r hF) hry) (copyable_rep gw.rep hc) f none (by simp)
          have hh := copyable_height gw.rep hc
          generalize Heap.copyFrom f s.heap p (some q) none = r at ok ht ⊢
          have ho : ∀ t e : Res Trees, (if (Orc.skip { own := !shared p, mixed := !copyable f s.heap.mem (some q) } v || i == j ||
              !Orc.copies { own := !shared p, mixed := !copyable f s.heap.mem (some q) } f w) = true then t else e) = e := by
            intro t e
            rw [skip_own g (o := { own := !shared p, mixed := !copyable f s.heap.mem (some q) }) rfl,
              copies_mixed gw.rep (o := { own := !shared p, mixed := !copyable f s.heap.mem (some q) }) (f := f) rfl, if_neg hs]
          match r with
          | .err _ => exact ok.elim
          | .loop => simp only [CopyOk] at ok; omega
          | .panic => exact ⟨{ own := !shared p, mixed := !copyable f s.heap.mem (some q) }, by dsimp only; rw [ho, if_neg (by simp [show noNil w = false from ok])]⟩
          | .ok h' =>
            obtain ⟨h1, F', u⟩ := ok
            obtain ⟨R', u'⟩ := hup [] _ _ F' u (by simp)
            refine ⟨{ own := !shared p, mixed := !copyable f s.heap.mem (some q) }, _, by dsimp only; rw [ho, if_pos h1], ?_⟩
            exact hT.change S (c := .copyFrom i π j ρ f) (E := E) rfl (hP _ (ht _ rfl)) hp u'.good.rep
  | addFrom i π j ρ f =>
    have hw := hT.walk S i π
    have hw' := hT.walk S j ρ
    obtain ⟨P, hP, ht⟩ : ∃ P : St → Prop, (∀ s', P s' → (Cmd.addFrom i π j ρ f).exec E s = .ok s') ∧ (∀ s', (Cmd.addFrom i π j ρ f).exec E s = .ok s' → P s') := ⟨_, fun _ h => h, fun _ h => h⟩
    simp only [Cmd.exec, Cmd.onTree] at ht ⊢
    generalize s.walk i π = r at hw ht ⊢
    match r with
    | .err _ => exact hw.elim
    | .loop => exact hw.elim
    | .panic => exact ⟨{}, by rw [hw]; rfl⟩
    | .ok p =>
      obtain ⟨v, F, hw, g, -, hu⟩ := hw
      simp only [Res.bind_ok, hw] at ht ⊢
      generalize s.walk j ρ = r at hw' ht ⊢
      match r with
      | .err _ => exact hw'.elim
      | .loop => exact hw'.elim
      | .panic => exact ⟨{}, by rw [hw']; rfl⟩
      | .ok q =>
        obtain ⟨w, G, hw', gw, hG, -⟩ := hw'
        simp only [Res.bind_ok, hw'] at ht ⊢
        by_cases hs : (shared p || i == j || !copyable f s.heap.mem (some q)) = true
        · rw [hs]
          simp only [Bool.true_or, if_true]
          exact ⟨{ own := !shared p, mixed := !copyable f s.heap.mem (some q) }, T, by
            simp only [skip_own g (o := { own := !shared p, mixed := !copyable f s.heap.mem (some q) }) rfl,
              copies_mixed gw.rep (o := { own := !shared p, mixed := !copyable f s.heap.mem (some q) }) (f := f) rfl]; rw [if_pos hs], hT⟩
        · have hs' := hs
          simp only [Bool.or_eq_true, not_or, beq_iff_eq, Bool.not_eq_true, Bool.not_eq_false'] at hs'
          obtain ⟨⟨hs1, hs2⟩, hc⟩ := hs'
          have ho : ∀ t e : Res Trees, (if (Orc.skip { own := !shared p, mixed := !copyable f s.heap.mem (some q) } v || i == j ||
              !Orc.copies { own := !shared p, mixed := !copyable f s.heap.mem (some q) } f w) = true then t else e) = e := by
            intro t e
            rw [skip_own g (o := { own := !shared p, mixed := !copyable f s.heap.mem (some q) }) rfl,
              copies_mixed gw.rep (o := { own := !shared p, mixed := !copyable f s.heap.mem (some q) }) (f := f) rfl, if_neg hs]
          have hdp := rep_dt g.rep
          have hdq := rep_dt gw.rep
          cases ha : addVal v w with
          | none =>
            have same : (if (shared p || i == j || !copyable f s.heap.mem (some q) || decide ((s.heap.mem p).dt ≠ (s.heap.mem q).dt)) = true then Res.ok s
                else (do let h ← Heap.addFrom f s.heap p (some q) none; Res.ok { heap := h, var := s.var } : Res St)) = .ok s := by
              split
              · rfl
              · rename_i h
                simp only [Bool.or_eq_true, not_or, decide_eq_true_eq, ne_eq, Decidable.not_not] at h
                have := addVal_none ha (rep_ne_nil g.rep) (rep_ne_nil gw.rep) (by rw [← hdp, ← hdq, h.2])
                rw [addFrom_other (by rw [hdq]; exact this.1) (by rw [hdq]; exact this.2)]
                rfl
            rw [same]
            exact ⟨{ own := !shared p, mixed := !copyable f s.heap.mem (some q) }, T, by dsimp only; rw [ho], hT⟩
          | some v' =>
            have hdt : (s.heap.mem p).dt = (s.heap.mem q).dt := by rw [hdp, hdq]; exact addVal_some ha
            have hs3 : (shared p || i == j || !copyable f s.heap.mem (some q) || decide ((s.heap.mem p).dt ≠ (s.heap.mem q).dt)) = false := by
              simp [hdt, hs1, hs2, hc]
            simp only [hs3] at ht ⊢
            obtain ⟨x, hx, hp, -, hsub, hup⟩ := hu (ge hs1)
            have ok := addFrom_spec g gw (fun r hr hF => by
              obtain ⟨y, hy, hry⟩ := hG r hr
              exact (S.world.apart i j x y hs2 hx hy).nodes r (hsub r hF) hry) (copyable_rep gw.rep hc) f none (by simp) ha
            have hh := copyable_height gw.rep hc
            generalize Heap.addFrom f s.heap p (some q) none = r at ok ht ⊢
            match r with
            | .err _ => exact ok.elim
            | .loop => simp only [CopyOk] at ok; omega
            | .panic => exact ⟨{ own := !shared p, mixed := !copyable f s.heap.mem (some q) }, by dsimp only; rw [ho]; simp [show noNil w = false from ok]⟩
            | .ok h' =>
              obtain ⟨h1, F', u⟩ := ok
              obtain ⟨R', u'⟩ := hup [] _ _ F' u (by simp)
              refine ⟨{ own := !shared p, mixed := !copyable f s.heap.mem (some q) }, T.put i (Val.subst (T i) π v'), by dsimp only; rw [ho]; simp [h1], ?_⟩
              exact hT.change S (c := .addFrom i π j ρ f) (E := E) rfl (hP _ (ht _ rfl)) hp u'.good.rep

end

/-! ## Programs -/

/-- A program in memory is the program on trees, with some oracles. -/
theorem program_refine (E : Env) : ∀ (cs : List Cmd) {s : St} {L : Nat → Option Live} {T : Trees}, Holds s T → Sound s L →
    match execAll E s cs with
    | .ok s' => ∃ os T', os.length = cs.length ∧ treeAll E T (cs.zip os) = .ok T' ∧ Holds s' T'
    | .panic => ∃ os, os.length = cs.length ∧ treeAll E T (cs.zip os) = .panic
    | _ => False
  | [], s, L, T, hT, S => ⟨[], T, rfl, rfl, hT⟩
  | c :: cs, s, L, T, hT, S => by
    have h := Cmd.refine hT S E c
    rw [execAll]
    cases e : c.exec E s with
    | err _ => rw [e] at h; exact h.elim
    | loop => rw [e] at h; exact h.elim
    | panic =>
      rw [e] at h
      obtain ⟨o, ho⟩ := h
      exact ⟨o :: List.replicate cs.length {}, by simp, by simp only [List.zip_cons_cons, treeAll]; rw [show c.onTree E o T = .panic from ho]; rfl⟩
    | ok s1 =>
      rw [e] at h
      obtain ⟨o, T1, ho, h1⟩ := h
      obtain ⟨L1, S1, -⟩ := S.exec E c e
      have ih := program_refine E cs h1 S1
      simp only [Res.bind_ok]
      generalize execAll E s1 cs = r at ih
      have ho : c.onTree E o T = .ok T1 := ho
      match r with
      | .err _ => exact ih.elim
      | .loop => exact ih.elim
      | .panic =>
        obtain ⟨os, hl, ht⟩ := ih
        exact ⟨o :: os, by simp [hl], by simp only [List.zip_cons_cons, treeAll]; rw [ho]; exact ht⟩
      | .ok s' =>
        obtain ⟨os, T', hl, ht, hs⟩ := ih
        exact ⟨o :: os, T', by simp [hl], by simp only [List.zip_cons_cons, treeAll]; rw [ho]; exact ht, hs⟩

end Dxs.Heap
