import Verif.Tree.Refine
import Verif.Load.Prog
import Verif.Props.YamlBlock
import Verif.Tree.Det
import Verif.Load.BsonSim
import Verif.Reflect.Proof
import Verif.Yaml.PureRun
import Verif.Tree.Go
import Verif.Tree.IntoBson

/-!
# Programs that parse, on trees

What the statements of `Verif.Load.Prog` mean when values are plain trees, as a relation between the trees before and after.
-/

namespace Dxs.Heap

/-- A variable gets what a document decodes to, up to the unused bits of a Float; nil if the document is refused. -/
def Trees.decoded (T : Trees) (i : Nat) (r : Res Val) (T' : Trees) : Prop :=
  match r with
  | .ok v => ∃ w, canon w = canon v ∧ T' = T.put i w
  | .err _ => T' = T.put i .nil
  | _ => False

/-- The value at a position becomes one that is related to it, unless the statement is left out. -/
def Trees.at (T : Trees) (i : Nat) (π : List Nat) (skip : Val → Prop) (R : Val → Val → Prop) (T' : Trees) : Prop :=
  ∃ v, T.walk i π = .ok v ∧ ((skip v ∧ T' = T) ∨ ∃ w, R v w ∧ T' = T.put i (Val.subst (T i) π w))

/-- What is left of the value by a load, also after an error. -/
def Filled.left : Filled Unit → Res Val
  | .ok _ v => .ok v
  | .err _ v => .ok v
  | .panic => .panic
  | .loop => .loop

/-- The value after a load, if there was no error. -/
def Filled.value : Filled Unit → Res Val
  | .ok _ v => .ok v
  | .err e _ => .err e
  | .panic => .panic
  | .loop => .loop

/-- A YAML text that is a block. -/
def blockText (E : Env) (b : Bytes) (w : Val) : Prop :=
  ∀ (d : Yaml.YB) (ind : Nat), d.Plain ind → d.Different E → d.full = true → (d.isMap = true ∨ d.isList = true) → Yaml.TextOf (d.lines ind) b → Yaml.IsBlock E w d

/-- `LoadFromYaml`: the value afterwards, also after an error. -/
def loadYamlVal (E : Env) (b : Bytes) (v : Val) : Res Val :=
  match Yaml.loadTree E (b.length + 1) b v with
  | .ok w => .ok w
  | .err _ => .ok (Yaml.loadLeft E (b.length + 1) b)
  | .panic => .panic
  | .loop => .loop

/-- What `MergeWith` makes of two values. -/
def mergedVal (E : Env) (g : Option (Bytes → MergeOp)) : Val → Val → Val → Prop
  | .obj ku kvs, .obj _ kvs', w => ∃ ku2 kvs2, mergeD E (askPath g) [] ku kvs kvs' = some (ku2, kvs2) ∧ w = .obj ku2 kvs2
  | .arr ys, .arr xs, w => w = .arr (ys ++ cloneValL (newOnes E ys xs))
  | v, _, w => w = v

/-- What Go data or a document becomes, up to the unused bits of a Float. -/
def stores (r : Res Val) (w : Val) : Prop := ∃ w0, r = .ok w0 ∧ canon w = canon w0

/-- A statement on trees. -/
def PCmd.means (E : Env) (T : Trees) : PCmd → Trees → Prop
  | .cmd c, T' => ∃ o, c.onTree E o T = .ok T'
  | .newMsgPack i b _ _, T' => T.decoded i (MsgPack.newValueFromMsgPack E b) T'
  | .newJson i b _ _ _, T' => T.decoded i (Json.newValueFromJson E b) T'
  | .newBson i hid b _ _, T' => T.decoded i (Bson.newValueFromBson E hid b) T'
  | .loadMsgPack i π b, T' => T.at i π (fun v => isConst v ∨ π ≠ []) (fun v w => stores (loadMsgPackT E (canon v) b).left w) T'
  | .loadJson i π b _, T' => T.at i π (fun v => isConst v ∨ π ≠ []) (fun v w => stores (loadJsonT E (canon v) b).value w) T' ∨
      ∃ v e, T.walk i π = .ok v ∧ (loadJsonT E (canon v) b).value = .err e ∧ T' = T.put i .nil
  | .loadBson i π hid b, T' => T.at i π (fun v => isConst v ∨ π ≠ []) (fun v w => stores (loadBsonT E hid (canon v) b).left w) T'
  | .forcePath i π t path, T' => T.at i π (fun v => isConst v) (fun v w => Forceable E v path → ∃ c, w = forceVal E v path (slotOf t c (forceOld E v path))) T'
  | .setValue i π g, T' => T.at i π (fun v => isConst v) (fun v w => stores (Reflect.goVal E v g) w ∧ (Reflect.FairRoot E g → v.vt ≠ .dateTime → Reflect.Mirrors g w)) T'
  | .setKeyvalue i π k g _, T' => T.at i π (fun v => isConst v) (fun v w => stores (Reflect.goKey E v k g) w ∧ (Reflect.Fair E g → ∀ ku ms, v = .obj ku ms → Reflect.Open ku ms → Reflect.Fresh E ms k →
      ∃ x, Reflect.Mirrors g x ∧ w = .obj true (ms ++ [(k, x)]))) T'
  | .setIndexvalue i π n g _, T' => T.at i π (fun v => isConst v) (fun v w => stores (Reflect.goIdx E v n g) w ∧ (Reflect.Fair E g → ∀ ys, v = .arr ys → n = ys.length →
      ∃ x, Reflect.Mirrors g x ∧ w = .arr (ys ++ [x]))) T'
  | .newYaml i b _ _ _, T' => if 42 ∈ b then T' = T else
      match Yaml.newTree E (b.length + 1) b with
      | .ok w => (KeyLaws E → blockText E b (w.getD .nil)) ∧ T' = T.put i (w.getD .nil)
      | .err _ => T' = T.put i .nil
      | _ => False
  | .loadYaml i π b _ _, T' => T.at i π (fun v => isConst v ∨ π ≠ [] ∨ 42 ∈ b) (fun v w => 42 ∉ b ∧ loadYamlVal E b v = .ok w) T'
  | .merge i π j ρ g _, T' => ∃ u, T.walk j ρ = .ok u ∧ T.at i π (fun _ => True) (fun v w => i ≠ j ∧ mergedVal E g v u w) T'
  | .newFrom i g cached _, T' => ∃ w, (∃ c, stores (Reflect.goVal E (if cached then .int 0 c else .obj false []) g) w) ∧ (Reflect.FairRoot E g → Reflect.Mirrors g w) ∧ T' = T.put i w

/-- A program on trees. -/
def PMeans (E : Env) : Trees → List PCmd → Trees → Prop
  | T, [], T' => T' = T
  | T, c :: cs, T' => ∃ T1, c.means E T T1 ∧ PMeans E T1 cs T'

/-! ## The memory behaves like that -/

section
variable {s s' : St} {L L' : Nat → Option Live} {T T' : Trees}

/-- Every variable holds some tree. -/
theorem Sound.tree (S : Sound s L) (i : Nat) : ∃ v F, Good s.heap (s.var i) v F := by
  cases hp : s.var i with
  | none => exact ⟨.nil, [], Good.none S.world.inv⟩
  | some p =>
    rcases S.vsome i p hp with ⟨h5, -⟩ | ⟨x, hx, rfl⟩
    · obtain ⟨w, g⟩ := const_tree S.world.inv h5
      exact ⟨w, [], g⟩
    · obtain ⟨v, g⟩ := (S.world.held i x hx).good
      exact ⟨v, _, g⟩

/-- One variable changes. -/
theorem Holds.pstep (hT : Holds s T) (S : Sound s L) {E : Env} {c : PCmd} {i : Nat} (hc : c.vars = [i]) (e : c.exec E s = .ok s') {v : Val} {F : List Ptr}
    (hr : Rep s'.heap.mem v (s'.var i) F) : Holds s' (T.put i v) := by
  obtain ⟨L', S', h⟩ := S.pexec E c e
  intro k
  by_cases hk : k = i
  · subst hk; rw [trees_put_same]; exact ⟨F, hr⟩
  · rw [trees_put_ne T v hk]; exact hT.keep S S'.world.inv (h k (by rw [hc]; simpa using hk))

theorem ge_of {q : Ptr} (h : ¬shared q = true) : 5 ≤ q := Nat.le_of_not_lt (fun hl => h (shared_iff.2 hl))

/-- The caches of a value. -/
theorem Sound.mine (S : Sound s L) {i : Nat} {x : Live} (hx : L i = some x) {G : List Ptr} (hsub : ∀ r ∈ G, r ∈ x.F) :
    Mine (fun d => d ∈ x.cs ∨ s.heap.nextC ≤ d) s.heap G :=
  ⟨S.world.own, fun r hr d hd => Or.inl ((S.world.held i x hx).owner r (hsub r hr) d hd), fun _ hd => Or.inr hd⟩

/-- Something happens at a position. -/
theorem Holds.onNode (hT : Holds s T) (S : Sound s L) {E : Env} {c : PCmd} {i : Nat} {π : List Nat} (hc : c.vars = [i]) (he : c.exec E s = .ok s')
    {f : Ptr → Res Heap} (e : s.onNode i π f = .ok s')
    (hy : ∀ q h' X w F, 5 ≤ q → f q = .ok h' → Good s.heap (some q) w F → Mine X s.heap F → In X s.heap F q h') {R : Val → Val → Prop}
    (hR : ∀ q h' v F w Fw, 5 ≤ q → f q = .ok h' → Good s.heap (some q) v F → Rep h'.mem w (some q) Fw → R v w) :
    ∃ T', T.at i π (fun v => isConst v) R T' ∧ Holds s' T' := by
  unfold St.onNode at e
  have hw := hT.walk S i π
  obtain ⟨q, e1, e⟩ := Res.bind_eq_ok.1 e
  rw [e1] at hw
  obtain ⟨v, G, hv, g, -, hu⟩ := hw
  split at e
  · rename_i hs
    cases e
    exact ⟨T, ⟨v, hv, Or.inl ⟨const_isConst g (shared_iff.1 hs), rfl⟩⟩, hT⟩
  · rename_i hs
    have h5 := ge_of hs
    obtain ⟨h', e2, e⟩ := Res.bind_eq_ok.1 e
    cases e
    obtain ⟨x, hx, hp, -, hsub, hup⟩ := hu h5
    obtain ⟨-, w, Fw, u⟩ := hy q h' _ v G h5 e2 g (S.mine hx hsub)
    obtain ⟨R', u'⟩ := hup [] h' w Fw u (by simp)
    refine ⟨_, ⟨v, hv, Or.inr ⟨w, hR q h' v G w Fw h5 e2 g u.good.rep, rfl⟩⟩, hT.pstep (F := R') S hc he ?_⟩
    rw [show St.var _ i = s.var i from rfl, hp]; exact u'.good.rep

/-- The nodes of a part are nodes of the whole. -/
theorem part_nodes {h h' : Heap} {a b : Option Ptr} {r v v' : Val} {R F F' R' : List Ptr} {π : List Nat} (g : Good h a r R) (hs : Val.sub r π = some v) (hb : ptrAt h.mem a π = some b)
    (gb : Good h b v F) (u : Upd h F h' b v' F') (u' : Upd h R h' a (Val.subst r π v') R') : ∀ q ∈ F', q ∈ R' := by
  obtain ⟨b', R1, F1, R2, rfl, hb', hpt, hrep⟩ := rep_sub g.rep hs
  rw [hb] at hpt
  cases hpt
  obtain rfl := (rep_det hb' gb.rep).2
  have hnd := g.nodup
  rw [List.append_assoc, List.nodup_append] at hnd
  obtain ⟨-, hn2, hd1⟩ := hnd
  obtain ⟨-, -, hd2⟩ := List.nodup_append.1 hn2
  have hout : ∀ q ∈ R1 ++ R2, q ∉ F1 := by
    intro q hq hF
    rcases List.mem_append.1 hq with hq | hq
    · exact hd1 q hq q (by simp [hF]) rfl
    · exact hd2 q hF q hq rfl
  have hlive : ∀ q ∈ R1 ++ R2, ¬Avail h q := fun q hq => g.live q (by simp at hq ⊢; grind)
  have hge : ∀ q ∈ R1 ++ R2, 5 ≤ q := fun q hq => rep_ge g.rep q (by simp at hq ⊢; grind)
  have := hrep h'.mem v' F' ⟨fun q hq => u.frame.mem q (hge q hq) (hout q hq) (hlive q hq), fun _ hp => g.inv.dt_const u.frame.inv hp⟩ u.good.rep
  obtain rfl := (rep_det this u'.good.rep).2
  intro q hq
  simp [hq]

/-- A position that can be loaded. -/
theorem Holds.cleared (hT : Holds s T) (S : Sound s L) {i : Nat} {π : List Nat} {q : Ptr} (e : s.walk i π = .ok q) (hl : s.loadable π q = true) :
    5 ≤ q ∧ ∃ v G, T.walk i π = .ok v ∧ Good s.heap (some q) v G ∧ ∃ X F, Good (Heap.clear s.heap q) (some q) (clearVal v) F ∧ Mine X (Heap.clear s.heap q) F ∧
      ∀ h', In X (Heap.clear s.heap q) F q h' → ∃ w' Fw F', Rep h'.mem w' (some q) Fw ∧ Good h' (s.var i) (Val.subst (T i) π w') F' ∧ (∀ r ∈ Fw, r ∈ F') ∧ ∃ L', Sound { s with heap := h' } L' := by
  have hw := hT.walk S i π
  rw [e] at hw
  obtain ⟨v, G, hv, g, -, hu⟩ := hw
  have hl' := hl
  simp only [St.loadable, Bool.and_eq_true, Bool.not_eq_true', Bool.or_eq_true, List.isEmpty_iff, Option.isNone_iff_eq_none] at hl
  have h5 : 5 ≤ q := ge_of (by rw [hl.1]; simp)
  obtain ⟨x, hx, hp, hroot, hsub, hup⟩ := hu h5
  refine ⟨h5, v, G, hv, g, ?_⟩
  rcases hl.2 with rfl | ho
  · obtain rfl := hroot rfl
    obtain ⟨W1, -⟩ := S.world.clear hx
    have hx1 := assign_same L i (some (⟨x.p, [x.p], x.cs⟩ : Live))
    have gw := g.clear S.world.own h5
    have m : Mine (fun d => d ∈ x.cs ∨ (Heap.clear s.heap x.p).nextC ≤ d) (Heap.clear s.heap x.p) [x.p] :=
      ⟨W1.own, fun r hr d hd => Or.inl ((W1.held i _ hx1).owner r hr d hd), fun d hd => Or.inr hd⟩
    refine ⟨_, _, gw, m, fun h' hin => ?_⟩
    obtain ⟨st2, w', F', u⟩ := hin
    refine ⟨w', F', F', u.good.rep, by rw [hp]; exact u.good, fun _ h => h, ?_⟩
    have W := W1.step hx1 u st2
    rw [assign_assign] at W
    obtain ⟨L', S', -⟩ := S.change hx (x' := ⟨x.p, F', x.cs ++ newIds (Heap.clear s.heap x.p) h'⟩) rfl W (fun k z hk hz r hr => by
      have hne : r ≠ x.p := by rintro rfl; exact (S.world.apart k i z x hk hz hx).nodes _ hr (hsub _ (rep_mem g.rep h5))
      obtain ⟨vz, gz⟩ := (W1.held k z (by rw [assign_ne _ _ hk]; exact hz)).good
      rw [u.frame.mem r (rep_ge gz.rep r hr) (by simp [hne]) (gz.live r hr)]
      exact clear_mem_ne hne)
    exact ⟨L', S'⟩
  · have u := clear_any g h5 ho
    have st : Step (fun d => d ∈ x.cs ∨ s.heap.nextC ≤ d) s.heap (Heap.clear s.heap q) := by
      rw [clear_upd ho]; exact upd_step g.inv q _ (fun h => by omega) (Node.clear_owner _)
    refine ⟨_, _, u.good, (S.mine hx hsub).step u st, fun h' hin => ?_⟩
    obtain ⟨st2, w', F', u2⟩ := hin
    obtain ⟨R', u'⟩ := hup [] h' w' F' (UpdX.trans u u2) (by simp)
    have hin : ∀ r ∈ F', r ∈ R' := by
      obtain ⟨Ti, hTi⟩ := hT i
      rw [hp] at hTi
      obtain ⟨vi, gi⟩ := (S.world.held i x hx).good
      obtain ⟨rfl, -⟩ := rep_det gi.rep hTi
      refine part_nodes gi (π := π) (v := v) ?_ (b := some q) ?_ g (UpdX.trans u u2) u'
      · unfold Trees.walk at hv
        split at hv <;> simp_all
      · unfold St.walk at e
        rw [hp] at e
        simp only [Option.bind_some] at e
        split at e
        · rename_i hq; cases e; exact hq
        · cases e
    refine ⟨w', F', R', u2.good.rep, by rw [hp]; exact u'.good, hin, ?_⟩
    obtain ⟨L', S', -⟩ := S.change hx (x' := ⟨x.p, R', x.cs ++ newIds s.heap h'⟩) rfl (S.world.step hx u' (st.trans st2)) (S.others hx u'.frame)
    exact ⟨L', S'⟩


/-- The nodes of a value. -/
theorem Sound.nodes (S : Sound s L) {i : Nat} {v : Val} {F : List Ptr} (hr : Rep s.heap.mem v (s.var i) F) : ∀ r ∈ F, ∃ x, L i = some x ∧ r ∈ x.F := by
  intro r hrF
  cases hp : s.var i with
  | none =>
    rw [hp] at hr
    obtain rfl := rep_nothing hr
    obtain ⟨-, rfl⟩ := hr
    cases hrF
  | some p =>
    rw [hp] at hr
    rcases S.vsome i p hp with ⟨h5, -⟩ | ⟨x, hx, rfl⟩
    · obtain ⟨w, g⟩ := const_tree S.world.inv h5
      obtain ⟨rfl, rfl⟩ := rep_det hr g.rep
      cases hrF
    · obtain ⟨w, g⟩ := (S.world.held i x hx).good
      obtain ⟨rfl, rfl⟩ := rep_det hr g.rep
      exact ⟨x, hx, hrF⟩

/-- How a parser ends that fills the node `q`: as on trees. What it leaves behind after an error is below `q`, or not in use. -/
def Ends (X : CId → Prop) (h : Heap) (F : List Ptr) (q : Ptr) : Filled Unit → Out Unit → Prop
  | .ok _ v, .ok _ h' => Step X h h' ∧ ∃ v' F', canon v' = canon v ∧ Upd h F h' (some q) v' F'
  | .err e v, .err e' h' => e' = e ∧ ∃ h1, (Step X h h1 ∧ ∃ v' F', canon v' = canon v ∧ Upd h F h1 (some q) v' F') ∧ ∀ r, 5 ≤ r → ¬Avail h1 r → h'.mem r = h1.mem r
  | .panic, .panic => True
  | .loop, .loop => True
  | _, _ => False

theorem Into.ends {h : Heap} {q : Ptr} {F : List Ptr} {X : CId → Prop} {w : Val} {t : Filled Unit} {y : Out Unit} (g : Good h (some q) w F) (h5 : 5 ≤ q) (m : Mine X h F)
    (l : Into (h.mem q).owner h q F t y) : Ends X h F q t y := by
  have hX : ∀ {h'}, Run (h.mem q).owner h h' → Step X h h' := fun r => r.step.mono (fun d hd => m.owner q (rep_mem g.rep h5) d hd)
  match t, y, l with
  | .ok _ _, .ok _ h', ⟨_, v', R', hv, u, r⟩ => exact ⟨hX r, v', R', hv, u⟩
  | .err _ _, .err _ h', ⟨he, l⟩ =>
    obtain ⟨h1, v', R', hv, u, r, f⟩ := l m.own
    exact ⟨he, h1, ⟨hX r, v', R', hv, u⟩, fun r h5 hr => f.mem h5 hr⟩
  | .panic, .panic, _ => trivial
  | .loop, .loop, _ => trivial

theorem BInto.ends {h : Heap} {q : Ptr} {F : List Ptr} {X : CId → Prop} {t : Filled Unit} {y : Out Unit} (l : BInto X h F q t y) : Ends X h F q t y := by
  match t, y, l with
  | .ok _ _, .ok _ h', l => exact l.2
  | .err _ _, .err _ h', l => exact ⟨l.1, h', l.2, fun _ _ _ => rfl⟩
  | .panic, .panic, _ => trivial
  | .loop, .loop, _ => trivial

/-- What is left of a value in which the part at `π` is loaded. -/
def Left (r : Val) (π : List Nat) (a : Option Ptr) : Filled Unit → Out Unit → Prop
  | .ok _ w0, .ok _ h' => ∃ w F', canon w = canon w0 ∧ Rep h'.mem (Val.subst r π w) a F'
  | .err e w0, .err e' h' => e' = e ∧ (Inv h' → ∃ w F', canon w = canon w0 ∧ Rep h'.mem (Val.subst r π w) a F')
  | .panic, .panic => True
  | .loop, .loop => True
  | _, _ => False

/-- A value is loaded: where, and how that ends. -/
theorem Holds.loads (hT : Holds s T) (S : Sound s L) {i : Nat} {π : List Nat} {q : Ptr} (e : s.walk i π = .ok q) (hl : s.loadable π q = true) {t : Val → Filled Unit} {y : Out Unit}
    (hy : ∀ X v F, 5 ≤ q → Good (Heap.clear s.heap q) (some q) (clearVal v) F → Mine X (Heap.clear s.heap q) F → Ends X (Heap.clear s.heap q) F q (t (canon v)) y) :
    ∃ v, T.walk i π = .ok v ∧
      Left (T i) π (s.var i) (t (canon v)) y := by
  obtain ⟨h5, v, G, hv, g, X, F, gc, m, hin⟩ := hT.cleared S e hl
  refine ⟨v, hv, ?_⟩
  have H := hy X v F h5 gc m
  generalize t (canon v) = t at H ⊢
  match t, y, H with
  | .ok _ _, .ok _ _, ⟨st, v', Fv, hc, u⟩ =>
    obtain ⟨w', Fw, F', r1, g2, -⟩ := hin _ ⟨st, v', Fv, u⟩
    obtain ⟨rfl, -⟩ := rep_det r1 u.good.rep
    exact ⟨w', F', hc, g2.rep⟩
  | .err _ _, .err _ _, ⟨he, h1, ⟨st, v', Fv, hc, u⟩, hm⟩ =>
    obtain ⟨w', Fw, F', r1, g2, -⟩ := hin _ ⟨st, v', Fv, u⟩
    obtain ⟨rfl, -⟩ := rep_det r1 u.good.rep
    exact ⟨he, fun I' => ⟨w', F', hc, rep_frame g2.rep ⟨fun r hr => hm r (rep_ge g2.rep r hr) (g2.live r hr), fun _ hp => g2.inv.dt_const I' hp⟩⟩⟩
  | .panic, .panic, _ => trivial
  | .loop, .loop, _ => trivial

/-- A value is loaded: the part that is the same for MessagePack and BSON. -/
theorem Holds.loaded (hT : Holds s T) (S : Sound s L) {E : Env} {c : PCmd} {i : Nat} {π : List Nat} {q : Ptr} (hc : c.vars = [i]) (he : c.exec E s = .ok s')
    (e : s.walk i π = .ok q) (hl : s.loadable π q = true) {t : Val → Filled Unit} {y : Out Unit} (es : s.loaded y = .ok s')
    (hy : ∀ X v F, 5 ≤ q → Good (Heap.clear s.heap q) (some q) (clearVal v) F → Mine X (Heap.clear s.heap q) F → Ends X (Heap.clear s.heap q) F q (t (canon v)) y)
    {skip : Val → Prop} :
    ∃ T', T.at i π skip (fun v w => stores (t (canon v)).left w) T' ∧ Holds s' T' := by
  obtain ⟨L', S', -⟩ := S.pexec E c he
  obtain ⟨v, hv, H⟩ := hT.loads S e hl hy
  have fin : ∀ {w w0 : Val} {F'}, (t (canon v)).left = .ok w0 → canon w = canon w0 → Rep s'.heap.mem (Val.subst (T i) π w) (s'.var i) F' →
      ∃ T', T.at i π skip (fun v w => stores (t (canon v)).left w) T' ∧ Holds s' T' := fun hl hw hr =>
    ⟨_, ⟨v, hv, Or.inr ⟨_, ⟨_, hl, hw⟩, rfl⟩⟩, hT.pstep S hc he hr⟩
  cases y with
  | ok a h' =>
    cases es
    cases et : t (canon v) with
    | ok a w0 =>
      rw [et] at H
      obtain ⟨w, F', hw, hr⟩ := H
      exact fin (by rw [et]; rfl) hw hr
    | err _ _ => rw [et] at H; exact H.elim
    | panic => rw [et] at H; exact H.elim
    | loop => rw [et] at H; exact H.elim
  | err x h' =>
    cases es
    cases et : t (canon v) with
    | err a w0 =>
      rw [et] at H
      obtain ⟨w, F', hw, hr⟩ := H.2 S'.world.inv
      exact fin (by rw [et]; rfl) hw hr
    | ok _ _ => rw [et] at H; exact H.elim
    | panic => rw [et] at H; exact H.elim
    | loop => rw [et] at H; exact H.elim
  | panic => cases es
  | loop => cases es

theorem clear_like (v : Val) : canon (clearVal v) = canon (clearVal (canon v)) := by rw [clear_canon, clear_canon, canon_idem]

/-- The loaders end as on trees. -/
theorem msgPackT_ends (E : Env) (b : Bytes) {h : Heap} {q : Ptr} (X : CId → Prop) (v : Val) (F : List Ptr) (h5 : 5 ≤ q) (g : Good (Heap.clear h q) (some q) (clearVal v) F)
    (m : Mine X (Heap.clear h q) F) : Ends X (Heap.clear h q) F q (loadMsgPackT E (canon v) b) (loadMsgPackH E h q b) :=
  Into.ends g h5 m (loadMsgPackH_into E g (clear_like v) h5 b)

theorem jsonT_ends (E : Env) (b : Bytes) {h : Heap} {q : Ptr} (X : CId → Prop) (v : Val) (F : List Ptr) (h5 : 5 ≤ q) (g : Good (Heap.clear h q) (some q) (clearVal v) F)
    (m : Mine X (Heap.clear h q) F) : Ends X (Heap.clear h q) F q (loadJsonT E (canon v) b) (loadJsonH E h q b) :=
  Into.ends g h5 m (loadJsonH_into E g (clear_like v) h5 b)

theorem bsonT_ends (E : Env) (hid b : Bytes) {h : Heap} {q : Ptr} (X : CId → Prop) (v : Val) (F : List Ptr) (h5 : 5 ≤ q) (g : Good (Heap.clear h q) (some q) (clearVal v) F)
    (m : Mine X (Heap.clear h q) F) : Ends X (Heap.clear h q) F q (loadBsonT E hid (canon v) b) (loadBsonH E hid h q b) := by
  have hlt : q < h.next := by
    have h1 := g.live q (rep_mem g.rep h5)
    rcases Nat.lt_or_ge q (Heap.clear h q).next with h2 | h2
    · rw [clear_next] at h2; exact h2
    · exact absurd (Or.inl h2) h1
  exact BInto.ends (loadBsonH_into E hid g (clear_like v) h5 m hlt b)

/-- The statement is left out. -/
theorem Holds.skipped (hT : Holds s T) (S : Sound s L) {i : Nat} {π : List Nat} {q : Ptr} (e : s.walk i π = .ok q) {P : Prop} (hl : ¬(s.loadable π q = true ∧ ¬P)) {R : Val → Val → Prop} :
    ∃ T', T.at i π (fun v => isConst v ∨ π ≠ [] ∨ P) R T' ∧ Holds s T' := by
  have hw := hT.walk S i π
  rw [e] at hw
  obtain ⟨v, G, hv, g, -, -⟩ := hw
  refine ⟨T, ⟨v, hv, Or.inl ⟨?_, rfl⟩⟩, hT⟩
  by_cases hP : P
  · exact Or.inr (Or.inr hP)
  · have hl := fun h => hl ⟨h, hP⟩
    simp only [St.loadable, Bool.and_eq_true, Bool.not_eq_true', Bool.or_eq_true, List.isEmpty_iff, Option.isNone_iff_eq_none] at hl
    by_cases hs : shared q = true
    · exact Or.inl (const_isConst g (shared_iff.1 hs))
    · exact Or.inr (Or.inl (fun hπ => hl ⟨by simpa using hs, Or.inl hπ⟩))

theorem Trees.at_mono {i : Nat} {π : List Nat} {p p' : Val → Prop} {R : Val → Val → Prop} (h : T.at i π p R T') (hp : ∀ v, p v → p' v) : T.at i π p' R T' := by
  obtain ⟨v, hv, h⟩ := h
  exact ⟨v, hv, h.imp (fun h => ⟨hp v h.1, h.2⟩) id⟩

/-! ### New values -/

theorem Holds.taken (hT : Holds s T) (S : Sound s L) {E : Env} {c : PCmd} {i : Nat} (hc : c.vars = [i]) (he : c.exec E s = .ok s') {y : Out (Option Ptr)} {d : Res Val}
    (hok : ∀ a h', y = .ok a h' → ∃ x, d = .ok x ∧ s' = ⟨h', assign s.var i a⟩ ∧ ∃ v F, canon v = canon x ∧ Rep h'.mem v a F)
    (herr : ∀ x h', y = .err x h' → (∃ e, d = .err e) ∧ s'.var i = none) (hp : y ≠ .panic) (hl : y ≠ .loop) :
    ∃ T', T.decoded i d T' ∧ Holds s' T' := by
  cases y with
  | ok a h' =>
    obtain ⟨x, rfl, rfl, v, F, hv, hr⟩ := hok a h' rfl
    exact ⟨_, ⟨v, hv, rfl⟩, hT.pstep (F := F) S hc he (by simpa [assign_same] using hr)⟩
  | err x h' =>
    obtain ⟨⟨e, rfl⟩, hn⟩ := herr x h' rfl
    exact ⟨_, rfl, hT.pstep (F := []) S hc he (by rw [hn]; exact ⟨rfl, rfl⟩)⟩
  | panic => exact absurd rfl hp
  | loop => exact absurd rfl hl

theorem loads_case {h : Heap} {d : Res Val} {y : Out (Option Ptr)} (l : Loads h d y) :
    (∀ a h', y = .ok a h' → ∃ x, d = .ok x ∧ ∃ v F, canon v = canon x ∧ Rep h'.mem v a F) ∧ (∀ x h', y = .err x h' → ∃ e, d = .err e) := by
  match d, y, l with
  | .ok v, .ok a h', ⟨v', F, hv, m⟩ =>
    refine ⟨fun a2 h2 e => ?_, nofun⟩
    cases e
    exact ⟨v, rfl, v', F, by rw [← hv, canon_idem], m.good.rep⟩
  | .err e, .err e' h', _ => exact ⟨nofun, fun _ _ _ => ⟨e, rfl⟩⟩
  | .panic, .panic, _ => exact ⟨nofun, nofun⟩
  | .loop, .loop, _ => exact ⟨nofun, nofun⟩

theorem loadsX_case {h : Heap} {d : Res Val} {y : Out (Option Ptr)} (l : LoadsX h d y) :
    (∀ a h', y = .ok a h' → ∃ x, d = .ok x ∧ ∃ v F, canon v = canon x ∧ Rep h'.mem v a F) ∧ (∀ x h', y = .err x h' → ∃ e, d = .err e) := by
  match d, y, l with
  | .ok v, .ok a h', ⟨F, m⟩ =>
    refine ⟨fun a2 h2 e => ?_, nofun⟩
    cases e
    exact ⟨v, rfl, v, F, rfl, m.good.rep⟩
  | .err e, .err e' h', _ => exact ⟨nofun, fun _ _ _ => ⟨e, rfl⟩⟩
  | .panic, .panic, _ => exact ⟨nofun, nofun⟩
  | .loop, .loop, _ => exact ⟨nofun, nofun⟩

theorem Holds.take (hT : Holds s T) (S : Sound s L) {E : Env} {c : PCmd} {i : Nat} (hc : c.vars = [i]) (he : c.exec E s = .ok s') {y : Out (Option Ptr)} (es : s.take i y = .ok s')
    {d : Res Val} (l : (∀ a h', y = .ok a h' → ∃ x, d = .ok x ∧ ∃ v F, canon v = canon x ∧ Rep h'.mem v a F) ∧ (∀ x h', y = .err x h' → ∃ e, d = .err e)) :
    ∃ T', T.decoded i d T' ∧ Holds s' T' := by
  refine hT.taken S hc he (y := y) ?_ ?_ (by rintro rfl; cases es) (by rintro rfl; cases es)
  · rintro a h' rfl
    cases es
    obtain ⟨x, hx, h⟩ := l.1 _ _ rfl
    exact ⟨x, hx, rfl, h⟩
  · rintro x h' rfl
    cases es
    exact ⟨l.2 _ _ rfl, assign_same _ _ _⟩

theorem Holds.takeJson (hT : Holds s T) (S : Sound s L) {E : Env} {c : PCmd} {i : Nat} (hc : c.vars = [i]) (he : c.exec E s = .ok s') {y : Out (Option Ptr)}
    {junk : Ptr → List (Bytes × Option Ptr)} (es : s.takeJson i junk y = .ok s')
    {d : Res Val} (l : (∀ a h', y = .ok a h' → ∃ x, d = .ok x ∧ ∃ v F, canon v = canon x ∧ Rep h'.mem v a F) ∧ (∀ x h', y = .err x h' → ∃ e, d = .err e)) :
    ∃ T', T.decoded i d T' ∧ Holds s' T' := by
  refine hT.taken S hc he (y := y) ?_ ?_ (by rintro rfl; cases es) (by rintro rfl; cases es)
  · rintro a h' rfl
    cases es
    obtain ⟨x, hx, h⟩ := l.1 _ _ rfl
    exact ⟨x, hx, rfl, h⟩
  · rintro x h' rfl
    cases es
    exact ⟨l.2 _ _ rfl, assign_same _ _ _⟩

/-! ### YAML -/

theorem textOf_lines {ls : List Bytes} {b : Bytes} (h : Yaml.TextOf ls b) : ls.length ≤ b.length + 1 := by
  have key : ls.length ≤ ((ls.map (· ++ [10])).flatten).length := by
    induction ls with
    | nil => simp
    | cons l ls ih =>
      simp only [List.map_cons, List.flatten_cons, List.length_append, List.length_cons]
      have : ls.length ≤ ((ls.map (· ++ [10])).flatten).length := by
        clear h ih
        induction ls with
        | nil => simp
        | cons l ls ih => simp only [List.map_cons, List.flatten_cons, List.length_append, List.length_cons]; omega
      omega
  rcases h with h | ⟨h, -⟩
  · rw [h]; omega
  · rw [← h] at key; simpa using key

theorem Holds.newYaml (hT : Holds s T) (S : Sound s L) {E : Env} {i : Nat} {b : Bytes} {cached : Bool} {pick : Heap → Option Nat} {p : Yaml.Parser}
    (he : (PCmd.newYaml i b cached pick p).exec E s = .ok s') : ∃ T', (PCmd.newYaml i b cached pick p).means E T T' ∧ Holds s' T' := by
  have he' := he
  simp only [PCmd.exec] at he'
  simp only [PCmd.means]
  split at he'
  · rename_i hb
    simp only [if_pos hb]
    cases he'
    exact ⟨T, rfl, hT⟩
  · rename_i hb
    simp only [if_neg hb]
    have H := Yaml.newYaml_tree (E := E) (f := b.length + 1) (p := p) S.world.inv hb pick cached
    have B : KeyLaws E → ∀ w, Yaml.newTree E (b.length + 1) b = .ok w → blockText E b (w.getD .nil) := by
      intro K w hw d ind h1 h2 h3 h4 h5
      obtain ⟨r, t, er, w', G, gw, hw'⟩ := Yaml.C100_partial K pick (b.length + 1) S.world.inv (Yaml.FromPool.used p) cached h1 h2 h3 h4 h5 (textOf_lines h5)
      rw [er, hw] at H
      cases w with
      | none => cases H
      | some w =>
        obtain ⟨r', F, e, -, g⟩ := H
        cases e
        rw [show (some w).getD .nil = w from rfl, (rep_det g.rep gw.rep).1]
        exact hw'
    unfold St.newYaml at he'
    generalize Yaml.newValueFromYaml E pick (b.length + 1) p.reset s.heap b cached = r at H he'
    generalize Yaml.newTree E (b.length + 1) b = r' at H B
    match r, r', H with
    | .ok r, .ok w, H =>
      cases he'
      refine ⟨_, ⟨fun K => B K w rfl, rfl⟩, ?_⟩
      cases w with
      | none => exact hT.pstep (F := []) S rfl he (by simp only [assign_same]; rw [show r.1 = none from H]; exact ⟨rfl, rfl⟩)
      | some w =>
        obtain ⟨q, F, e, -, g⟩ := H
        exact hT.pstep (F := F) S rfl he (by simp only [assign_same]; rw [e]; exact g.rep)
    | .err _, .err _, _ =>
      cases he'
      exact ⟨_, rfl, hT.pstep (F := []) S rfl he (by simp only [assign_same]; exact ⟨rfl, rfl⟩)⟩

theorem Holds.loadYaml (hT : Holds s T) (S : Sound s L) {E : Env} {i : Nat} {π : List Nat} {q : Ptr} (e : s.walk i π = .ok q) (hl : s.loadable π q = true) {b : Bytes}
    {pick : Heap → Option Nat} {p : Yaml.Parser} (hb : 42 ∉ b) (es : s.loadYaml E q b pick p = .ok s') :
    s'.var = s.var ∧ ∃ v, T.walk i π = .ok v ∧ ∃ w F, Rep s'.heap.mem (Val.subst (T i) π w) (s.var i) F ∧ loadYamlVal E b v = .ok w := by
  let K : Heap → Prop := fun h => ∃ L', Sound { s with heap := h } L' ∧ ∃ w F, Rep h.mem (Val.subst (T i) π w) (s.var i) F ∧ ∃ Fw, Rep h.mem w (some q) Fw ∧ ∀ r ∈ Fw, r ∈ F
  have hm : Yaml.CanMake K (fun _ h => K h) := by
    rintro h t pick ⟨L', S', w, F, hr, Fw, hw, hF⟩ ht
    have C : Calm { s with heap := h } L' h := ⟨S'.world, fun _ _ _ _ _ => rfl⟩
    obtain ⟨X, ⟨v, g⟩, m, h5, gv, hin⟩ := C.root pick ht
    refine ⟨X, _, v, g, m, h5, gv, fun h' hi => ?_⟩
    obtain ⟨⟨W, hk'⟩, -⟩ := hin h' hi
    have ag : ∀ r ∈ F, h'.mem r = h.mem r := by
      intro r hr'
      obtain ⟨x, hx, hrx⟩ := S'.nodes (i := i) hr r hr'
      exact hk' i x hx r hrx
    exact ⟨L', ⟨W, S'.vnone, S'.vsome⟩, w, F, rep_frame hr ⟨ag, fun _ hp => S'.world.inv.dt_const W.inv hp⟩, Fw, rep_frame hw ⟨fun r hr => ag r (hF r hr), fun _ hp => S'.world.inv.dt_const W.inv hp⟩, hF⟩
  obtain ⟨h5, v, G, hv, gv, X, F, g, m, hK⟩ := hT.cleared S e hl
  have hK : ∀ h', In X (Heap.clear s.heap q) F q h' → K h' := fun h' hi => by
    obtain ⟨w', Fw, F', hw, g', hF, L', S'⟩ := hK h' hi
    exact ⟨L', S', w', F', g'.rep, Fw, hw, hF⟩
  have fin : ∀ {h' : Heap} {x : Val} {Fx : List Ptr}, K h' → Good h' (some q) x Fx → loadYamlVal E b v = .ok x → s' = { s with heap := h' } →
      s'.var = s.var ∧ ∃ v, T.walk i π = .ok v ∧ ∃ w F, Rep s'.heap.mem (Val.subst (T i) π w) (s.var i) F ∧ loadYamlVal E b v = .ok w := by
    rintro h' x Fx ⟨-, -, w, F, hr, Fw, hw, -⟩ gx hx rfl
    obtain ⟨rfl, -⟩ := rep_det gx.rep hw
    exact ⟨rfl, v, hv, x, F, hr, hx⟩
  have H := Yaml.loadYaml_tree (E := E) (f := b.length + 1) (p := p) gv g h5 hb pick
  have hb' : 42 ∉ b.dropWhile Yaml.isWB := fun h => hb ((List.dropWhile_sublist _).mem h)
  have start : ∀ t, Yaml.Ready K (fun _ h => K h) { p := { p.reset with useCache := false, root := some q, cache := ((Heap.reset (Heap.clear s.heap q) q t).mem q).owner, stack := ⟨false, -1, q⟩ :: p.reset.stack }, h := Heap.reset (Heap.clear s.heap q) q t } := by
    intro t
    have i1 : In X (Heap.clear s.heap q) F q (Heap.reset (Heap.clear s.heap q) q t) := In.mut (E := E) g h5 m (.reset t) rfl
    obtain ⟨st, v1, F1, u⟩ := i1
    have m1 := m.step u st
    refine Or.inr ⟨[q], ⟨q, X, Heap.clear s.heap q, F, rfl, fun h' hi => hK h' hi, ⟨m, ⟨st, v1, F1, u⟩, Given.owner u.good h5 m1, rfl, by simpa using h5, ?_⟩⟩, Or.inr rfl⟩
    rintro q' rest he; cases he; trivial
  have none : K (Heap.clear s.heap q) := hK _ (In.refl g)
  unfold St.loadYaml at es
  split at es
  · rename_i r er
    cases es
    rw [er] at H
    cases hl : Yaml.loadTree E (b.length + 1) b v with
    | ok x =>
      rw [hl] at H
      obtain ⟨Fx, gx⟩ := H
      have hx : loadYamlVal E b v = .ok x := by unfold loadYamlVal; rw [hl]
      refine fin ?_ gx hx rfl
      unfold Yaml.loadFromYaml at er
      dsimp only at er
      split at er
      · cases er; exact none
      · obtain ⟨s1, e1, er⟩ := Res.bind_eq_ok.1 er
        cases er
        have h1 : K s1.h := (Yaml.parse_tr hm (fun _ _ h => h) hb' (start _) e1).known (fun _ _ h => h)
        exact h1
    | err _ => rw [hl] at H; exact H.elim
    | panic => rw [hl] at H; exact H.elim
    | loop => rw [hl] at H; exact H.elim
  · rename_i er
    cases es
    rw [er] at H
    cases hl : Yaml.loadTree E (b.length + 1) b v with
    | err _ =>
      have hx : loadYamlVal E b v = .ok (Yaml.loadLeft E (b.length + 1) b) := by unfold loadYamlVal; rw [hl]
      have hne : b.dropWhile Yaml.isWB ≠ [] := by
        intro h
        unfold Yaml.loadTree at hl
        rw [if_pos h] at hl
        cases hl
      obtain ⟨Fx, gx⟩ := Yaml.loadYaml_left (E := E) (f := b.length + 1) (p := p) gv.inv g h5 hb hne pick
      refine fin ?_ gx hx rfl
      unfold Yaml.loadStart
      dsimp only
      cases hc : (b.dropWhile Yaml.isWB).head? with
      | none => simp at hc; exact absurd hc (by simpa using hne)
      | some c => exact Yaml.parseErr_tr (E := E) hm (fun _ _ h => h) hb' (start _)
    | ok _ => rw [hl] at H; exact H.elim
    | panic => rw [hl] at H; exact H.elim
    | loop => rw [hl] at H; exact H.elim
  · cases es
  · cases es

/-! ### Merges -/

theorem merge_exact {E : Env} {h h' : Heap} {p q : Ptr} {v u : Val} {F G : List Ptr} (gp : Good h (some p) v F) (gq : Good h (some q) u G) (hd : ∀ r ∈ G, r ∉ F)
    (g : Option (Bytes → MergeOp)) (f : Nat) (hc : mergeable E g f h.mem p q = true) (er : mergeWith E (byPathOp g) f h (some p) (some q) = .ok h') :
    ∃ w F', mergedVal E g v u w ∧ Upd h F h' (some p) w F' := by
  simp only [mergeable, Bool.and_eq_true] at hc
  obtain ⟨⟨c1, c2⟩, c3⟩ := hc
  have hcp := copyable_rep gq.rep c1
  have htd := tidy_rep gq.rep c2
  cases hv : valOf f h.mem (some p) with
  | none => rw [hv] at c3; cases c3
  | some v' =>
    cases hw : valOf f h.mem (some q) with
    | none => rw [hv, hw] at c3; cases v' <;> cases c3
    | some u' =>
      obtain rfl := valOf_rep gp.rep hv
      obtain rfl := valOf_rep gq.rep hw
      rw [hv, hw] at c3
      have other : (v'.vt ≠ u'.vt ∨ 1 < v'.vt.ord) → mergedVal E g v' u' v' → ∃ w F', mergedVal E g v' u' w ∧ Upd h F h' (some p) w F' := by
        intro hne hm
        have : h' = h := by
          have hp := rep_dt gp.rep
          have hq := rep_dt gq.rep
          simp only [mergeWith, hp, hq] at er
          rw [if_pos] at er
          · cases er; rfl
          · exact hne.imp (fun h => Ne.symm h) id
        rw [this]
        exact ⟨v', F, hm, gp.upd_refl⟩
      cases v' with
      | obj ku kvs =>
        cases u' with
        | obj ku' kvs' =>
          simp only [Bool.and_eq_true, decide_eq_true_eq, Option.isSome_iff_exists] at c3
          obtain ⟨⟨hn, hf⟩, ⟨ku2, kvs2⟩, hm⟩ := c3
          obtain ⟨h2, F2, e2, u⟩ := mergeObject_deep E (asks_path g) f kvs' p q ku' kvs' G 0 h [] ku kvs F ku2 kvs2 hn rfl hf gp gq hd hcp htd hm
          simp only [mergeWith, show (h.mem p).dt = .object from rep_dt gp.rep, show (h.mem q).dt = .object from rep_dt gq.rep] at er
          have : h' = h2 := by
            have e3 : mergeObject E (byPathOp g) f h [] p q 0 = .ok h' := by simpa [VT.ord] using er
            rw [e2] at e3; cases e3; rfl
          rw [this]
          exact ⟨_, _, ⟨ku2, kvs2, hm, rfl⟩, u⟩
        | _ => exact other (Or.inl (by simp [Val.vt])) rfl
      | arr ys =>
        cases u' with
        | arr xs =>
          simp only [Bool.and_eq_true, decide_eq_true_eq, List.all_eq_true] at c3
          obtain ⟨⟨⟨⟨hn, hf⟩, sx⟩, sy⟩, ht⟩ := c3
          obtain ⟨h2, G', e2, u⟩ := mergeWith_arr (E := E) (byPathOp g) gp gq (settledL_iff.1 sy) (settledL_iff.1 sx) hcp hn hf (fun x hx y hy => by
            have := ht x hx y hy
            split at this
            · exact ⟨_, ‹_›⟩
            · cases this) hd
          rw [e2] at er
          cases er
          exact ⟨_, _, rfl, u⟩
        | _ => exact other (Or.inl (by simp [Val.vt])) rfl
      | _ => exact other (by simpa using c3) rfl

/-! ### All statements -/

theorem isConst_or {v : Val} {P : Prop} (h : isConst v ∨ P ∨ False) : isConst v ∨ P := h.imp id (fun h => h.elim id False.elim)

theorem slot_slotOf {t : VT} {old : Option Val} {w : Val} (h : Slot t old w) : ∃ c, w = slotOf t c old := by
  unfold Slot at h
  unfold slotOf
  cases old with
  | none => exact h
  | some x =>
    dsimp only at h ⊢
    split at h
    · exact ⟨0, by rw [if_pos ‹_›]; exact h⟩
    · obtain ⟨c, hc⟩ := h
      exact ⟨c, by rw [if_neg ‹_›]; exact hc⟩

theorem does_stores {h h' : Heap} {p : Ptr} {F Fw : List Ptr} {t : Res Val} {r : Res Heap} {w : Val} (d : Reflect.Does h F p t r) (e : r = .ok h') (hr : Rep h'.mem w (some p) Fw) : stores t w := by
  subst e
  obtain ⟨w', w0, F', e, hc, u⟩ := d
  rw [(rep_det hr u.good.rep).1]
  exact ⟨w0, e, hc⟩

theorem cache_lt (own : Bool) {q : Ptr} (I : Inv s.heap) : ∀ d, s.cacheOf own q = some d → d < s.heap.nextC := by
  intro d hd
  unfold St.cacheOf at hd
  split at hd
  · exact I.owner q d hd
  · cases hd

/-- Before `NewValueFrom` stores anything. -/
theorem newFrom_blank (S : Sound s L) (cached : Bool) (pick : Option Nat) : ∃ c G, Good (if cached then newCacheValue s.heap .int pick else s.heap.new Node.zero).2
    (some (if cached then newCacheValue s.heap .int pick else s.heap.new Node.zero).1) (if cached then .int 0 c else .obj false []) G ∧
    5 ≤ (if cached then newCacheValue s.heap .int pick else s.heap.new Node.zero).1 := by
  cases cached
  · rw [if_neg (by simp)]
    obtain ⟨gr, hw, hn, hge, hm, -⟩ := new_spec S.world.inv Node.zero (by simp [Node.zero])
    refine ⟨0, _, ⟨gr.inv, rep_blank (m := (s.heap.new Node.zero).2.mem) (t := .object) hge ?b, by simp, ?_⟩, hge⟩
    · rw [hm]; exact ⟨rfl, rfl, rfl, rfl, rfl, rfl, rfl⟩
    · intro q hq; simp at hq; subst hq; exact hn
  · obtain ⟨W, hlt, -, -⟩ := S.world.getCache pick
    have A := getValue_spec W.inv (some (Heap.getCache s.heap pick).1) .int (by intro d hd; cases hd; exact hlt)
    exact ⟨_, _, A.good, A.ge⟩

/-- **C115.** -/
theorem Holds.pexec (hT : Holds s T) (S : Sound s L) (E : Env) (c : PCmd) (he : c.exec E s = .ok s') : ∃ T', c.means E T T' ∧ Holds s' T' := by
  have he' := he
  cases c with
  | cmd c =>
    have h := Cmd.refine hT S E c
    rw [show c.exec E s = .ok s' from he'] at h
    obtain ⟨o, T', e, hT'⟩ := h
    exact ⟨T', ⟨o, e⟩, hT'⟩
  | newMsgPack i b cached pick => exact hT.take S rfl he he' (loads_case (newValueFromMsgPackH_spec E S.world.inv b cached pick))
  | newJson i b cached pick junk => exact hT.takeJson S rfl he he' (loads_case (newValueFromJsonH_spec E S.world.inv b cached pick))
  | newBson i hid b cached pick => exact hT.take S rfl he he' (loadsX_case (newValueFromBsonH_spec E hid S.world.inv b cached pick))
  | loadMsgPack i π b =>
    simp only [PCmd.exec, Res.bind_eq_ok] at he'
    obtain ⟨q, e1, e⟩ := he'
    split at e
    · rename_i hl
      exact hT.loaded S rfl he e1 hl (t := fun v => loadMsgPackT E v b) e (fun X v F => msgPackT_ends E b X v F)
    · rename_i hl
      cases e
      obtain ⟨T', h, hT'⟩ := hT.skipped S e1 (P := False) (by simpa using hl) (R := fun v w => stores (loadMsgPackT E (canon v) b).left w)
      exact ⟨T', Trees.at_mono h (fun v => isConst_or), hT'⟩
  | loadJson i π b junk =>
    simp only [PCmd.exec, Res.bind_eq_ok] at he'
    obtain ⟨q, e1, e⟩ := he'
    split at e
    · rename_i hl
      obtain ⟨v, hv, H⟩ := hT.loads S e1 hl (t := fun v => loadJsonT E v b) (fun X v F => jsonT_ends E b X v F)
      cases ey : loadJsonH E s.heap q b with
      | ok a h' =>
        rw [ey] at H e
        cases e
        cases et : loadJsonT E (canon v) b with
        | ok a w0 =>
          rw [et] at H
          obtain ⟨w, F', hw, hr⟩ := H
          exact ⟨_, Or.inl ⟨v, hv, Or.inr ⟨w, ⟨w0, by rw [et]; rfl, hw⟩, rfl⟩⟩, hT.pstep S rfl he hr⟩
        | err _ _ => rw [et] at H; exact H.elim
        | panic => rw [et] at H; exact H.elim
        | loop => rw [et] at H; exact H.elim
      | err x h' =>
        rw [ey] at H e
        cases e
        cases et : loadJsonT E (canon v) b with
        | err e w0 =>
          exact ⟨T.put i .nil, Or.inr ⟨v, e, hv, by rw [et]; rfl, rfl⟩, hT.pstep (F := []) S rfl he ⟨assign_same _ _ _, rfl⟩⟩
        | ok _ _ => rw [et] at H; exact H.elim
        | panic => rw [et] at H; exact H.elim
        | loop => rw [et] at H; exact H.elim
      | panic => rw [ey] at e; cases e
      | loop => rw [ey] at e; cases e
    · rename_i hl
      cases e
      obtain ⟨T', h, hT'⟩ := hT.skipped S e1 (P := False) (by simpa using hl) (R := fun v w => stores (loadJsonT E (canon v) b).value w)
      exact ⟨T', Or.inl (Trees.at_mono h (fun v => isConst_or)), hT'⟩
  | loadBson i π hid b =>
    simp only [PCmd.exec, Res.bind_eq_ok] at he'
    obtain ⟨q, e1, e⟩ := he'
    split at e
    · rename_i hl
      exact hT.loaded S rfl he e1 hl (t := fun v => loadBsonT E hid v b) e (fun X v F => bsonT_ends E hid b X v F)
    · rename_i hl
      cases e
      obtain ⟨T', h, hT'⟩ := hT.skipped S e1 (P := False) (by simpa using hl) (R := fun v w => stores (loadBsonT E hid (canon v) b).left w)
      exact ⟨T', Trees.at_mono h (fun v => isConst_or), hT'⟩
  | forcePath i π t path =>
    refine hT.onNode S rfl he he' (fun q h' X w F h5 e1 g m => ?_) (fun q h' v F w Fw h5 e1 g hr hf => ?_)
    · cases hf : Heap.forcePath E s.heap q t path with
      | ok r => rw [hf] at e1; cases e1; exact forcePath_in g h5 m hf
      | err _ => rw [hf] at e1; cases e1
      | panic => rw [hf] at e1; cases e1
      | loop => rw [hf] at e1; cases e1
    · obtain ⟨q', h2, w', F', G, e2, -, u, -, hs⟩ := forceLoop_ok t path g h5 hf none none []
      rw [show Heap.forcePath E s.heap q t path = .ok (q', h2) from e2] at e1
      cases e1
      obtain ⟨c, rfl⟩ := slot_slotOf hs
      exact ⟨c, (rep_det hr u.good.rep).1⟩
  | setValue i π d =>
    refine hT.onNode S rfl he he' (fun q h' X w F h5 e1 g m => Reflect.setValue_in g h5 m d e1) (fun q h' v F w Fw h5 e1 g hr => ⟨does_stores (Reflect.goVal_does d g h5 rfl) e1 hr, fun hf ht => ?_⟩)
    obtain ⟨h2, w', F', e2, u, hx⟩ := Reflect.setValue_upd d hf g h5 ht
    rw [e2] at e1; cases e1
    rw [(rep_det hr u.good.rep).1]
    exact Reflect.Exact.mirrors d hx
  | setKeyvalue i π k d own =>
    refine hT.onNode S rfl he he' (fun q h' X w F h5 e1 g m => Reflect.setKeyvalue_in d g h5 m (Sound.cacheOf own h5 g m) k e1) (fun q h' v F w Fw h5 e1 g hr => ⟨does_stores (Reflect.goKey_does d g h5 rfl k _ (cache_lt own g.inv)) e1 hr, fun hf ku ms hv op fr => ?_⟩)
    subst hv
    have hc := cache_lt (s := s) (q := q) own g.inv
    obtain ⟨h2, w', F', e2, u, hx⟩ := Reflect.setKeyvalue_upd d hf g op fr (s.cacheOf own q) hc
    rw [e2] at e1; cases e1
    exact ⟨w', Reflect.Exact.mirrors d hx, (rep_det hr u.good.rep).1⟩
  | setIndexvalue i π n d own =>
    refine hT.onNode S rfl he he' (fun q h' X w F h5 e1 g m => Reflect.setIndexvalue_in d g h5 m (Sound.cacheOf own h5 g m) n e1) (fun q h' v F w Fw h5 e1 g hr => ⟨does_stores (Reflect.goIdx_does d g h5 rfl n _ (cache_lt own g.inv)) e1 hr, fun hf ys hv hn => ?_⟩)
    subst hv
    have hc := cache_lt (s := s) (q := q) own g.inv
    obtain ⟨h2, w', F', e2, u, hx⟩ := Reflect.setIndexvalue_upd d hf g hn (s.cacheOf own q) hc
    rw [e2] at e1; cases e1
    exact ⟨w', Reflect.Exact.mirrors d hx, (rep_det hr u.good.rep).1⟩
  | newYaml i b cached pick p => exact hT.newYaml S he
  | loadYaml i π b pick p =>
    simp only [PCmd.exec, Res.bind_eq_ok] at he'
    obtain ⟨q, e1, e⟩ := he'
    split at e
    · rename_i hc
      simp only [Bool.and_eq_true, Bool.not_eq_true', decide_eq_false_iff_not] at hc
      obtain ⟨hvar, v, hv, w, F, hr, hx⟩ := hT.loadYaml S e1 hc.1 hc.2 e
      exact ⟨_, ⟨v, hv, Or.inr ⟨w, ⟨hc.2, hx⟩, rfl⟩⟩, hT.pstep (F := F) S rfl he (by rw [hvar]; exact hr)⟩
    · rename_i hl
      cases e
      exact hT.skipped S e1 (P := 42 ∈ b) (by simpa using hl)
  | merge i π j ρ g f =>
    simp only [PCmd.exec, Res.bind_eq_ok] at he'
    obtain ⟨p, e1, q, e2, e⟩ := he'
    have hw := hT.walk S i π
    rw [e1] at hw
    obtain ⟨v, F, hv, gp, -, hu⟩ := hw
    have hw := hT.walk S j ρ
    rw [e2] at hw
    obtain ⟨u, G, hu', gq, hG, -⟩ := hw
    split at e
    · cases e; exact ⟨T, ⟨u, hu', v, hv, Or.inl ⟨trivial, rfl⟩⟩, hT⟩
    · rename_i hq
      simp only [Bool.or_eq_true, not_or, beq_iff_eq, Bool.not_eq_true', Bool.not_eq_false] at hq
      simp only [Res.bind_eq_ok] at e
      obtain ⟨h', e3, e⟩ := e
      cases e
      have h5 : 5 ≤ p := ge_of hq.1.1
      obtain ⟨x, hx, hp, -, hsub, hup⟩ := hu h5
      obtain ⟨w, F', hm, uu⟩ := merge_exact gp gq (fun r hr hF => by
        obtain ⟨y, hy, hry⟩ := hG r hr
        exact (S.world.apart i j x y hq.1.2 hx hy).nodes r (hsub r hF) hry) g f hq.2 e3
      obtain ⟨R', u'⟩ := hup [] h' w F' uu (by simp)
      refine ⟨_, ⟨u, hu', v, hv, Or.inr ⟨w, ⟨hq.1.2, hm⟩, rfl⟩⟩, hT.pstep (F := R') S rfl he ?_⟩
      rw [show St.var _ i = s.var i from rfl, hp]; exact u'.good.rep
  | newFrom i d cached pick =>
    simp only [PCmd.exec, Res.bind_eq_ok] at he'
    obtain ⟨r, e1, e⟩ := he'
    cases e
    obtain ⟨L', S', -⟩ := S.pexec E _ he
    obtain ⟨v, F, g⟩ := S'.tree i
    unfold newValueFrom at e1
    obtain ⟨h', e3, e2⟩ := Res.bind_eq_ok.1 e1
    cases e2
    obtain ⟨c, G, gx, h5⟩ := newFrom_blank S cached pick
    have hv : (if cached then Val.int 0 c else .obj false []).vt ≠ .dateTime := by cases cached <;> simp [Val.vt]
    have hp := hT.pstep (F := F) S rfl he g.rep
    refine ⟨_, ⟨v, ⟨c, ?_⟩, fun hf => ?_, rfl⟩, hp⟩
    all_goals
      clear e1 hp
      generalize (if cached then newCacheValue s.heap .int pick else s.heap.new Node.zero) = r at e3 gx g h5
      have : (s.store i (r.1, h')).var i = some r.1 := assign_same _ _ _
      rw [this] at g
    · exact does_stores (Reflect.goVal_does d gx h5 rfl) e3 g.rep
    · obtain ⟨h2, w', F', e2, u, hx⟩ := Reflect.setValue_upd d hf gx h5 hv
      rw [e2] at e3; cases e3
      rw [(rep_det g.rep u.good.rep).1]
      exact Reflect.Exact.mirrors d hx

/-- A whole program. -/
theorem Holds.pexecAll (E : Env) : ∀ (cs : List PCmd) {s s' : St} {L : Nat → Option Live} {T : Trees}, Holds s T → Sound s L → pexecAll E s cs = .ok s' →
    ∃ T', PMeans E T cs T' ∧ Holds s' T'
  | [], _, _, _, T, hT, _, e => by cases e; exact ⟨T, rfl, hT⟩
  | c :: cs, s, s', L, T, hT, S, e => by
    rw [Heap.pexecAll] at e
    obtain ⟨s1, e1, e2⟩ := Res.bind_eq_ok.1 e
    obtain ⟨T1, h1, hT1⟩ := hT.pexec S E c e1
    obtain ⟨L1, S1, -⟩ := S.pexec E c e1
    obtain ⟨T', h2, hT'⟩ := Holds.pexecAll E cs hT1 S1 e2
    exact ⟨T', ⟨T1, h1, h2⟩, hT'⟩

end

end Dxs.Heap
