import Verif.Load.Ops

/-!
# Loading anything into any value

`LoadFromMsgPack` and `LoadFromJson` keep the value a proper tree whatever the document is and whatever the value was, also when they
fail; they change nothing but the value, memory that was available, and (after an error) a node of their own that they free.
-/

namespace Dxs.Heap
open MsgPack (readCode parseStr sliceFrom parseArrLen parseMapLen)
open Bson (at_)
open Json (skipWB)

section
variable {h : Heap} {p : Ptr} {v : Val} {F : List Ptr}

/-- A write that keeps the type and the children. -/
theorem write_any (g : Good h (some p) v F) (h5 : 5 ≤ p) {n : Node} (hd : n.dt = (h.mem p).dt) (ho : n.owner = (h.mem p).owner)
    (hk : n.dt = .object → n.kvs = (h.mem p).kvs) (ha : n.dt = .array → n.arr = (h.mem p).arr) : Moves h F p (h.set p n) := by
  have hdt := rep_dt g.rep
  by_cases e1 : (h.mem p).dt = .object
  · obtain ⟨ku, kvs, rfl⟩ := vt_obj (hdt.symm.trans e1) (rep_ne_nil g.rep)
    obtain ⟨F0, rfl, -, -, -, hm, hp0, hn0, -⟩ := g.obj_inv
    refine Moves.of (obj_write (X := []) g (n := n) (hd.trans e1) ho (by rw [hk (hd.trans e1)]; exact hm) hn0 ?_ (by simp))
    intro q hq
    exact Or.inl ⟨by simp [hq], by rintro rfl; exact hp0 hq⟩
  · by_cases e2 : (h.mem p).dt = .array
    · obtain ⟨xs, rfl⟩ := vt_arr (hdt.symm.trans e2) (rep_ne_nil g.rep)
      obtain ⟨F0, rfl, -, -, hm, hp0, hn0, -⟩ := g.arr_inv
      refine Moves.of (arr_write (X := []) g (n := n) (hd.trans e2) ho (by rw [ha (hd.trans e2)]; exact hm) hn0 ?_ (by simp))
      intro q hq
      exact Or.inl ⟨by simp [hq], by rintro rfl; exact hp0 hq⟩
    · have : ∃ w, leafOf n = some w := by
        unfold leafOf
        rw [← hd] at e1 e2
        split <;> simp_all
      obtain ⟨w, hw⟩ := this
      exact Moves.of (write_leaf g rfl h5 ho hw)

/-- A pointer is appended to the elements, also if the value is not an array. -/
theorem push_arr_any (g : Good h (some p) v F) (h5 : 5 ≤ p) {b : Option Ptr} {w : Val} {G : List Ptr} (gw : Good h b w G) (hd : ∀ q ∈ G, q ∉ F) :
    ∃ v' F', UpdX G h F (h.upd p (fun n => { n with arr := n.arr ++ [b] })) (some p) v' F' := by
  by_cases e : (h.mem p).dt = .array
  · obtain ⟨xs, rfl⟩ := vt_arr ((rep_dt g.rep).symm.trans e) (rep_ne_nil g.rep)
    exact ⟨_, arr_snoc g gw hd⟩
  · obtain ⟨v', F', u⟩ := write_any g h5 (n := { h.mem p with arr := (h.mem p).arr ++ [b] }) rfl rfl (fun _ => rfl) (fun h => absurd h e)
    exact ⟨v', F', u.mono (by simp)⟩

/-- A member is appended, also if the value is not an object. -/
theorem push_kvs_any (g : Good h (some p) v F) (h5 : 5 ≤ p) (k : Bytes) {b : Option Ptr} {w : Val} {G : List Ptr} (gw : Good h b w G) (hd : ∀ q ∈ G, q ∉ F) :
    ∃ v' F', UpdX G h F (h.upd p (fun n => { n with kvs := n.kvs ++ [(k, b)] })) (some p) v' F' := by
  by_cases e : (h.mem p).dt = .object
  · obtain ⟨ku, kvs, rfl⟩ := vt_obj ((rep_dt g.rep).symm.trans e) (rep_ne_nil g.rep)
    exact ⟨_, obj_snoc g gw hd k⟩
  · obtain ⟨v', F', u⟩ := write_any g h5 (n := { h.mem p with kvs := (h.mem p).kvs ++ [(k, b)] }) rfl rfl (fun h => absurd h e) (fun _ => rfl)
    exact ⟨v', F', u.mono (by simp)⟩

/-- The last member is replaced, also if the value is not an object. -/
theorem put_last_any (g : Good h (some p) v F) (h5 : 5 ≤ p) (k : Bytes) {b : Option Ptr} {w : Val} {G : List Ptr} (gw : Good h b w G) (hd : ∀ q ∈ G, q ∉ F) :
    ∃ v' F', UpdX G h F (h.upd p (fun n => { n with kvs := setLast n.kvs (k, b) })) (some p) v' F' := by
  by_cases e : (h.mem p).dt = .object
  · obtain ⟨ku, kvs, rfl⟩ := vt_obj ((rep_dt g.rep).symm.trans e) (rep_ne_nil g.rep)
    exact ⟨_, obj_last g gw hd k⟩
  · obtain ⟨v', F', u⟩ := write_any g h5 (n := { h.mem p with kvs := setLast (h.mem p).kvs (k, b) }) rfl rfl (fun h => absurd h e) (fun _ => rfl)
    exact ⟨v', F', u.mono (by simp)⟩

end

/-- The value `r` stays a proper tree; after an error there may be garbage besides. -/
def Fill {α : Type} (c : Option CId) (h : Heap) (r : Ptr) (R : List Ptr) : Out α → Prop
  | .ok _ h' => ∃ v' R', Upd h R h' (some r) v' R' ∧ Run c h h'
  | .err _ h' => Own h → ∃ h1 v' R', Upd h R h1 (some r) v' R' ∧ Run c h h1 ∧ Failed c h1 h'
  | _ => True

section
variable {α β : Type} {c : Option CId} {h : Heap} {r : Ptr} {R : List Ptr} {w : Val}

theorem Fill.same (g : Good h (some r) w R) (a : α) : Fill c h r R (.ok a h) := ⟨w, R, g.upd_refl, Run.refl g.inv⟩

theorem Fill.err (g : Good h (some r) w R) (e : Err) : Fill c h r R (.err e h : Out α) :=
  fun _ => ⟨h, w, R, g.upd_refl, Run.refl g.inv, Or.inl ⟨Frame.refl g.inv _, Run.refl g.inv⟩⟩

theorem Fill.moves {h' : Heap} (m : Moves h R r h') (s : Run c h h') (a : α) : Fill c h r R (.ok a h') := by
  obtain ⟨v', R', u⟩ := m
  exact ⟨v', R', u, s⟩

theorem Fill.lift (g : Good h (some r) w R) {x : Res α} {f : α → Heap → Out β} (hf : ∀ v, Fill c h r R (f v h)) : Fill c h r R ((Out.lift x h).bind f) := by
  cases x with
  | ok v => exact hf v
  | err e => exact Fill.err g e
  | panic => trivial
  | loop => trivial

theorem Fill.ite {P : Prop} [Decidable P] {x y : Out α} (a : P → Fill c h r R x) (b : ¬P → Fill c h r R y) : Fill c h r R (if P then x else y) := by
  split
  · exact a ‹_›
  · exact b ‹_›

/-- The first part has been done. -/
theorem Fill.after {h1 : Heap} {R1 : List Ptr} {v1 : Val} (u : Upd h R h1 (some r) v1 R1) (s : Run c h h1) {y : Out α} (l : Fill c h1 r R1 y) : Fill c h r R y := by
  cases y with
  | ok a h' => obtain ⟨v', R', u', s'⟩ := l; exact ⟨v', R', UpdX.trans u u', s.trans s'⟩
  | err e h' =>
    intro O
    obtain ⟨h2, v', R', u', s', f⟩ := l (s.step.own O)
    exact ⟨h2, v', R', UpdX.trans u u', s.trans s', f⟩
  | panic => trivial
  | loop => trivial

/-- A part is parsed. -/
theorem Fill.value (g : Good h (some r) w R) {x : Res (Val × Bytes)} {y : Out (Option Ptr × Bytes)} (l : Sim c h x y) {f : Option Ptr × Bytes → Heap → Out β}
    (hf : ∀ a b h' v' G, MadeO h a h' v' G → Run c h h' → Fill c h r R (f (a, b) h')) : Fill c h r R (y.bind f) := by
  match x, y, l with
  | .ok (v, b), .ok (a, b') h', ⟨e, v', G, hv, m, s⟩ => exact hf a b' h' v' G m s
  | .err _, .err _ _, ⟨e, ok⟩ => exact fun O => ⟨h, w, R, g.upd_refl, Run.refl g.inv, ok.failed O⟩
  | .panic, .panic, _ => trivial
  | .loop, .loop, _ => trivial

/-- The result is not looked at. -/
theorem Fill.unit {y : Out α} (l : Fill c h r R y) (b : β) : Fill c h r R (y.bind fun _ h => .ok b h) := by
  cases y with
  | ok a h' => exact l
  | err e h' => exact l
  | panic => trivial
  | loop => trivial

/-- A part that was made is stored. -/
theorem Fill.put (g : Good h (some r) w R) {h' h2 : Heap} {a : Option Ptr} {v' : Val} {G : List Ptr} (m : MadeO h a h' v' G) (s : Run c h h')
    (hu : ∀ {w' : Val}, Good h' (some r) w' R → (∀ q ∈ G, q ∉ R) → ∃ v2 R2, UpdX G h' R h2 (some r) v2 R2) (s2 : Run c h' h2) :
    ∃ v2 R2, Upd h R h2 (some r) v2 R2 ∧ Run c h h2 := by
  have u1 := g.upd_frame m.frame
  obtain ⟨v2, R2, u2⟩ := hu u1.good (fun x hx hR => g.live x hR (m.fresh x hx))
  exact ⟨v2, R2, (UpdX.trans u1 u2).absorb m.fresh, s.trans s2⟩

end

/-! ## `LoadFromMsgPack` -/

theorem elemsH_fill {c : Option CId} {n0 : Nat} {p : Bytes → Res (Val × Bytes)} {P : Heap → Bytes → Out (Option Ptr × Bytes)} (hP : PartSim c n0 p P) (r : Ptr)
    (h5 : 5 ≤ r) : ∀ (n : Nat) (h : Heap) (b : Bytes) (R : List Ptr) (w : Val), n0 ≤ h.nextC → Good h (some r) w R → Fill c h r R (elemsH P r n h b)
  | 0, h, b, R, w, hn, g => Fill.same g b
  | n + 1, h, b, R, w, hn, g => by
    rw [elemsH]
    refine Fill.value g (hP h b g.inv hn) ?_
    intro a b h' v' G m s
    obtain ⟨v2, R2, u, s2⟩ := Fill.put g m s (fun g' hd => push_arr_any g' h5 (m.good) hd)
      (Run.upd s.step.inv r (fun m => { m with arr := m.arr ++ [a] }) (fun h => by omega) rfl)
    exact Fill.after u s2 (elemsH_fill hP r h5 n _ b R2 v2 (Nat.le_trans hn s2.step.nextC) u.good)

theorem membersH_fill (E : Env) {c : Option CId} {n0 : Nat} {p : Bytes → Res (Val × Bytes)} {P : Heap → Bytes → Out (Option Ptr × Bytes)} (hP : PartSim c n0 p P)
    (r : Ptr) (h5 : 5 ≤ r) : ∀ (n : Nat) (h : Heap) (b : Bytes) (R : List Ptr) (w : Val), n0 ≤ h.nextC → Good h (some r) w R →
      Fill c h r R (membersH E P r n h b)
  | 0, h, b, R, w, hn, g => Fill.same g b
  | n + 1, h, b, R, w, hn, g => by
    rw [membersH]
    refine Fill.lift g fun cb => Fill.lift g fun kb => Fill.value g (hP h kb.2 g.inv hn) ?_
    intro a b h' v' G m s
    obtain ⟨v2, R2, u, s2⟩ := Fill.put g m s (fun g' hd => setKeyValue_any E g' h5 kb.1 m.good hd) (Run.setKeyValue s.step.inv E r kb.1 a)
    exact Fill.after u s2 (membersH_fill E hP r h5 n _ b R2 v2 (Nat.le_trans hn s2.step.nextC) u.good)

section
variable {h : Heap} {p : Ptr} {w : Val} {R : List Ptr}

theorem part_sim (E : Env) (fuel : Nat) {c : Option CId} {n0 : Nat} (hc : ∀ d, c = some d → d < n0) : PartSim c n0 (MsgPack.parseValue E fuel) (parseValueH E fuel c) :=
  fun h b I hn => parseValueH_spec E fuel c h b I (fun d hd => Nat.lt_of_lt_of_le (hc d hd) hn)

theorem array2H_fill (E : Env) (fuel : Nat) (code : UInt8) (g : Good h (some p) w R) (h5 : 5 ≤ p) (b : Bytes) :
    Fill (h.mem p).owner h p R (array2H E fuel p code h b) := by
  unfold array2H
  refine Fill.lift g fun nb => Fill.ite (fun _ => Fill.same g _) (fun _ => ?_)
  have u := reset_upd g h5 .array
  refine Fill.after u (Run.reset g.inv p .array) ?_
  refine elemsH_fill (part_sim E fuel (fun d hd => ?_)) p h5 _ _ _ _ _ (Nat.le_refl _) u.good
  rw [(Same.reset h p .array).nextC]; exact g.inv.owner p d hd

theorem object2H_fill (E : Env) (fuel : Nat) (code : UInt8) (g : Good h (some p) w R) (h5 : 5 ≤ p) (b : Bytes) :
    Fill (h.mem p).owner h p R (object2H E fuel p code h b) := by
  unfold object2H
  refine Fill.lift g fun nb => Fill.ite (fun _ => Fill.same g _) (fun _ => ?_)
  split
  · trivial
  · exact Fill.ite (fun _ => Fill.err g _) (fun _ => membersH_fill E (part_sim E fuel (fun d hd => g.inv.owner p d hd)) p h5 _ _ _ _ _ (Nat.le_refl _) g)

/-- The bytes are written into a node of any type. -/
theorem Fill.bytes {α : Type} {c : Option CId} (g : Good h (some p) w R) (h5 : 5 ≤ p) (f : Node → Node)
    (hf : ∀ n, (f n).dt = n.dt ∧ (f n).owner = n.owner ∧ (f n).kvs = n.kvs ∧ (f n).arr = n.arr) (a : α) : Fill c h p R (.ok a (h.upd p f)) := by
  obtain ⟨h1, h2, h3, h4⟩ := hf (h.mem p)
  exact Fill.moves (write_any g h5 h1 h2 (fun _ => h3) (fun _ => h4)) (Run.upd g.inv p f (fun _ => h1) h2) a

theorem bin2H_fill {c : Option CId} (code : UInt8) (g : Good h (some p) w R) (h5 : 5 ≤ p) (b : Bytes) : Fill c h p R (bin2H p code h b) := by
  unfold bin2H
  refine Fill.lift g fun nb => Fill.ite (fun _ => ?_) (fun _ => Fill.err g _)
  exact Fill.bytes g h5 (fun n => { n with bin := n.bin ++ nb.2.take nb.1 }) (fun n => ⟨rfl, rfl, rfl, rfl⟩) _

theorem Fill.setDouble {α : Type} {c : Option CId} (g : Good h (some p) w R) (h5 : 5 ≤ p) (x : F64) (a : α) : Fill c h p R (.ok a (Heap.setDouble h p x)) :=
  Fill.moves (Moves.of (setDouble_upd g h5 x)) (Run.setDouble g.inv p x) a
theorem Fill.setFloat {α : Type} {c : Option CId} (g : Good h (some p) w R) (h5 : 5 ≤ p) (x : F32) (a : α) : Fill c h p R (.ok a (Heap.setFloat h p x)) :=
  Fill.moves (setFloat_any g h5 x) (Run.setFloat g.inv p x) a
theorem Fill.setInt {α : Type} {c : Option CId} (g : Good h (some p) w R) (h5 : 5 ≤ p) (x : BitVec 64) (a : α) : Fill c h p R (.ok a (Heap.setInt h p x)) :=
  Fill.moves (setInt_any g h5 x) (Run.setInt g.inv p x) a
theorem Fill.reset {α : Type} {c : Option CId} (g : Good h (some p) w R) (h5 : 5 ≤ p) (t : VT) (a : α) : Fill c h p R (.ok a (Heap.reset h p t)) :=
  Fill.moves (Moves.of (reset_upd g h5 t)) (Run.reset g.inv p t) a

theorem ext2H_fill (E : Env) {c : Option CId} (code : UInt8) (g : Good h (some p) w R) (h5 : 5 ≤ p) (b : Bytes) : Fill c h p R (ext2H E p code h b) := by
  unfold ext2H
  refine Fill.lift g fun nb => Fill.ite (fun _ => Fill.err g _) (fun _ => Fill.lift g fun tail => ?_)
  split
  · trivial
  · refine Fill.ite (fun _ => Fill.lift g fun x => Fill.setDouble g h5 x _) (fun _ => ?_)
    exact Fill.bytes g h5 (fun n => { n with bin := n.bin ++ nb.2.take (nb.1 + 1) }) (fun n => ⟨rfl, rfl, rfl, rfl⟩) _

theorem parse2H_fill (E : Env) (fuel : Nat) (g : Good h (some p) w R) (h5 : 5 ≤ p) (b : Bytes) : Fill (h.mem p).owner h p R (parse2H E fuel p h b) := by
  unfold parse2H
  have num : ∀ (x : Res (Nat × Bytes)) (f : Nat → BitVec 64), Fill (h.mem p).owner h p R ((Out.lift x h).bind fun ub h => .ok ub.2 (setInt h p (f ub.1))) :=
    fun x f => Fill.lift g fun ub => Fill.setInt g h5 _ _
  refine Fill.lift g fun cb => ?_
  dsimp only
  refine Fill.ite (fun _ => Fill.lift g fun sb => Fill.bytes g h5 (fun n => { n with str := sb.1 }) (fun n => ⟨rfl, rfl, rfl, rfl⟩) _) (fun _ => ?_)
  refine Fill.ite (fun _ => array2H_fill E fuel _ g h5 _) (fun _ => ?_)
  refine Fill.ite (fun _ => object2H_fill E fuel _ g h5 _) (fun _ => ?_)
  refine Fill.ite (fun _ => Fill.setInt g h5 _ _) (fun _ => ?_)
  iterate 7 refine Fill.ite (fun _ => num _ _) (fun _ => ?_)
  refine Fill.ite (fun _ => Fill.lift g fun ub => Fill.setFloat g h5 _ _) (fun _ => ?_)
  refine Fill.ite (fun _ => Fill.lift g fun ub => Fill.setDouble g h5 _ _) (fun _ => ?_)
  refine Fill.ite (fun _ => Fill.reset g h5 _ _) (fun _ => ?_)
  refine Fill.ite (fun _ => Fill.reset g h5 _ _) (fun _ => ?_)
  refine Fill.ite (fun _ => Fill.reset g h5 _ _) (fun _ => ?_)
  refine Fill.ite (fun _ => bin2H_fill _ g h5 _) (fun _ => ?_)
  exact Fill.ite (fun _ => ext2H_fill E _ g h5 _) (fun _ => Fill.same g _)

end

/-! ## `LoadFromJson` -/

theorem jobj2LoopH_fill (E : Env) (r : Ptr) (h5 : 5 ≤ r) (c : Option CId) : ∀ (fuel : Nat) (h : Heap) (b : Bytes) (R : List Ptr) (w : Val),
    (∀ d, c = some d → d < h.nextC) → Good h (some r) w R → Fill c h r R (jobj2LoopH E c r fuel h b)
  | 0, _, _, _, _, _, _ => trivial
  | fuel + 1, h, b, R, w, hc, g => by
    rw [jobj2LoopH]
    dsimp only
    obtain ⟨v1, R1, u1⟩ := push_kvs_any g h5 [] (Good.none g.inv) (by simp)
    have s1 := Run.upd (c := c) g.inv r (fun n => { n with kvs := n.kvs ++ [([], none)] }) (fun h => by omega) rfl
    refine Fill.after u1 s1 ?_
    have hc1 := fun d hd => Nat.lt_of_lt_of_le (hc d hd) s1.step.nextC
    have g1 := u1.good
    refine Fill.lift g1 fun start => Fill.ite (fun _ => Fill.err g1 _) (fun _ => Fill.lift g1 fun b => Fill.lift g1 fun kb => ?_)
    obtain ⟨v2, R2, u2⟩ := put_last_any g1 h5 kb.1 (Good.none g1.inv) (by simp)
    have s2 := Run.upd (c := c) g1.inv r (fun n => { n with kvs := setLast n.kvs (kb.1, none) }) (fun h => by omega) rfl
    refine Fill.after u2 s2 ?_
    have hc2 := fun d hd => Nat.lt_of_lt_of_le (hc1 d hd) s2.step.nextC
    have g2 := u2.good
    refine Fill.lift g2 fun colon =>
      Fill.ite (fun _ => Fill.err g2 _) (fun _ => Fill.lift g2 fun b => Fill.value g2 ((jsim E fuel).value c _ _ g2.inv hc2) ?_)
    intro a b h' v' G m s
    obtain ⟨v3, R3, u, s3⟩ := Fill.put g2 m s (fun g' hd => put_last_any g' h5 kb.1 m.good hd)
      (Run.upd s.step.inv r (fun n => { n with kvs := setLast n.kvs (kb.1, a) }) (fun h => by omega) rfl)
    refine Fill.after u s3 ?_
    have g3 := u.good
    refine Fill.ite (fun _ => Fill.err g3 _) (fun _ => Fill.lift g3 fun x => ?_)
    refine Fill.ite (fun _ => Fill.lift g3 fun b => jobj2LoopH_fill E r h5 c fuel _ b R3 v3 (fun d hd => Nat.lt_of_lt_of_le (hc2 d hd) s3.step.nextC) g3) (fun _ => ?_)
    exact Fill.ite (fun _ => Fill.lift g3 fun b => Fill.same g3 b) (fun _ => Fill.err g3 _)

theorem jarrLoopH_fill (E : Env) (r : Ptr) (h5 : 5 ≤ r) (c : Option CId) : ∀ (fuel : Nat) (h : Heap) (b : Bytes) (R : List Ptr) (w : Val),
    (∀ d, c = some d → d < h.nextC) → Good h (some r) w R → Fill c h r R (jarrLoopH E fuel c r h b)
  | 0, _, _, _, _, _, _ => trivial
  | fuel + 1, h, b, R, w, hc, g => by
    rw [jarrLoopH]
    refine Fill.value g ((jsim E fuel).value c h _ g.inv hc) ?_
    intro a b h' v' G m s
    obtain ⟨v2, R2, u, s2⟩ := Fill.put g m s (fun g' hd => push_arr_any g' h5 m.good hd)
      (Run.upd s.step.inv r (fun n => { n with arr := n.arr ++ [a] }) (fun h => by omega) rfl)
    refine Fill.after u s2 ?_
    have g2 := u.good
    refine Fill.ite (fun _ => Fill.err g2 _) (fun _ => Fill.lift g2 fun x => ?_)
    refine Fill.ite (fun _ => Fill.lift g2 fun b => jarrLoopH_fill E r h5 c fuel _ b R2 v2 (fun d hd => Nat.lt_of_lt_of_le (hc d hd) s2.step.nextC) g2) (fun _ => ?_)
    exact Fill.ite (fun _ => Fill.lift g2 fun b => Fill.same g2 b) (fun _ => Fill.err g2 _)

section
variable {h : Heap} {p : Ptr} {w : Val} {R : List Ptr}

theorem num2Loop_fill (E : Env) {c : Option CId} (g : Good h (some p) w R) (h5 : 5 ≤ p) (b : Bytes) : ∀ (r : Bytes) (i : Nat), Fill c h p R (num2Loop E p h b i r) := by
  intro r
  induction r with
  | nil => intro i; exact Fill.same g _
  | cons ch r ih =>
    intro i
    rw [num2Loop]
    refine Fill.ite (fun _ => ih _) (fun _ => Fill.lift g fun word => Fill.ite (fun _ => Fill.lift g fun t => Fill.ite (fun _ => Fill.lift g fun xs => ?_)
      (fun _ => Fill.err g _)) (fun _ => Fill.lift g fun ns => Fill.lift g fun tail => ?_))
    · refine Fill.ite (fun _ => Fill.lift g fun t => Fill.reset g h5 _ _) (fun _ => ?_)
      exact Fill.ite (fun _ => Fill.lift g fun t => Fill.reset g h5 _ _) (fun _ => Fill.err g _)
    · exact Fill.ite (fun _ => Fill.setFloat g h5 _ _) (fun _ => Fill.setInt g h5 _ _)

theorem json2H_fill (E : Env) (fuel : Nat) (g : Good h (some p) w R) (h5 : 5 ≤ p) (b : Bytes) : Fill (h.mem p).owner h p R (json2H E fuel p h b) := by
  unfold json2H
  dsimp only
  refine Fill.ite (fun _ => Fill.err g _) (fun _ => Fill.lift g fun b0 => ?_)
  refine Fill.ite (fun _ => Fill.lift g fun b => Fill.ite (fun _ => Fill.err g _) (fun _ => Fill.lift g fun b0 => Fill.ite (fun _ => ?_) (fun _ => ?_))) (fun _ => ?_)
  · exact Fill.lift g fun t => Fill.same g _
  · exact jobj2LoopH_fill E p h5 _ fuel h _ R w (fun d hd => g.inv.owner p d hd) g
  refine Fill.ite (fun _ => Fill.lift g fun b => Fill.ite (fun _ => Fill.err g _) (fun _ => Fill.lift g fun b0 => Fill.ite (fun _ => ?_) (fun _ => ?_))) (fun _ => ?_)
  · exact Fill.lift g fun t => Fill.same g _
  · exact jarrLoopH_fill E p h5 _ fuel h _ R w (fun d hd => g.inv.owner p d hd) g
  refine Fill.ite (fun _ => Fill.lift g fun b => Fill.lift g fun st => ?_) (fun _ => ?_)
  · split
    · have u := reset_upd g h5 .rawString
      exact Fill.after u (Run.reset g.inv p _) (Fill.bytes u.good h5 (fun n => { n with str := st.1 }) (fun n => ⟨rfl, rfl, rfl, rfl⟩) _)
    · rename_i d _
      have u := reset_upd g h5 .dateTime
      exact Fill.after u (Run.reset g.inv p _) (Fill.setDouble u.good h5 _ _)
  exact Fill.ite (fun _ => Fill.lift g fun vt => Fill.reset g h5 _ _) (fun _ => num2Loop_fill E g h5 b _ _)

end

end Dxs.Heap
