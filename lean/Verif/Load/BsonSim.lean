import Verif.Load.Bson
import Verif.Load.Root

/-!
# The BSON decoder in memory and on trees
-/

namespace Dxs.Heap
open Bson (uint32 uint64 at_ sliceTo slice targetType settle blank)

/-- Nothing left of the value `w` but what the type says: a clean null. -/
structure NullAt (h : Heap) (q : Ptr) (F : List Ptr) : Prop where
  good : Good h (some q) .null F
  ge : 5 ≤ q
  bin : (h.mem q).bin = []

/-- The outcome of a decoder step on the value at `p` (nodes `F`): the same count and the tree, or the same error. -/
def BSim (h : Heap) (F : List Ptr) (p : Ptr) : Res (Nat × Val) → Out Nat → Prop
  | .ok (n, v), .ok m h' => m = n ∧ ∃ F', Upd h F h' (some p) v F'
  | .err e, .err e' _ => e' = e
  | .panic, .panic => True
  | .loop, .loop => True
  | _, _ => False

/-- The same for the loops. -/
def BLoop (h : Heap) (F : List Ptr) (p : Ptr) : Res Val → Out Unit → Prop
  | .ok v, .ok _ h' => ∃ F', Upd h F h' (some p) v F'
  | .err e, .err e' _ => e' = e
  | .panic, .panic => True
  | .loop, .loop => True
  | _, _ => False

theorem BSim.lift {α : Type} {h : Heap} {F : List Ptr} {p : Ptr} (r : Res α) {f : α → Res (Nat × Val)} {g : α → Heap → Out Nat}
    (hf : ∀ a, BSim h F p (f a) (g a h)) : BSim h F p (r >>= f) ((Out.lift r h).bind g) := by
  cases r with
  | ok a => exact hf a
  | err e => rfl
  | panic => trivial
  | loop => trivial

theorem BLoop.lift {α : Type} {h : Heap} {F : List Ptr} {p : Ptr} (r : Res α) {f : α → Res Val} {g : α → Heap → Out Unit}
    (hf : ∀ a, BLoop h F p (f a) (g a h)) : BLoop h F p (r >>= f) ((Out.lift r h).bind g) := by
  cases r with
  | ok a => exact hf a
  | err e => rfl
  | panic => trivial
  | loop => trivial

theorem BSim.loop {h : Heap} {F : List Ptr} {p : Ptr} {x : Res Val} {y : Out Unit} (b : BLoop h F p x y) (n : Nat) :
    BSim h F p (x >>= fun v => .ok (n, v)) (y.bind fun _ h => .ok n h) := by
  match x, y, b with
  | .ok v, .ok _ h', u => exact ⟨rfl, u⟩
  | .err e, .err e' _, r => exact r
  | .panic, .panic, _ => trivial
  | .loop, .loop, _ => trivial

/-- Beginning with other memory: the errors and the value after an update. -/
theorem BSim.after {h h1 : Heap} {F F1 : List Ptr} {p : Ptr} {v : Val} (u : Upd h F h1 (some p) v F1) {x : Res (Nat × Val)} {y : Out Nat}
    (b : BSim h1 F1 p x y) : BSim h F p x y := by
  match x, y, b with
  | .ok (n, v), .ok _ h', ⟨e, F', u'⟩ => exact ⟨e, F', u.trans u'⟩
  | .err e, .err e' _, r => exact r
  | .panic, .panic, _ => trivial
  | .loop, .loop, _ => trivial

theorem BLoop.after {h h1 : Heap} {F F1 : List Ptr} {p : Ptr} {v : Val} (u : Upd h F h1 (some p) v F1) {x : Res Val} {y : Out Unit}
    (b : BLoop h1 F1 p x y) : BLoop h F p x y := by
  match x, y, b with
  | .ok v, .ok _ h', ⟨F', u'⟩ => exact ⟨F', u.trans u'⟩
  | .err e, .err e' _, r => exact r
  | .panic, .panic, _ => trivial
  | .loop, .loop, _ => trivial

section
variable {h : Heap} {q : Ptr} {F : List Ptr}

theorem NullAt.dt (n : NullAt h q F) : (h.mem q).dt = .null := rep_dt n.good.rep

/-- One write of a scalar. -/
theorem NullAt.leaf (n : NullAt h q F) {f : Node → Node} {w : Val} (ho : (f (h.mem q)).owner = (h.mem q).owner) (hw : leafOf (f (h.mem q)) = some w) (k : Nat) :
    BSim h F q (.ok (k, w)) (.ok k (h.upd q f)) :=
  ⟨rfl, [q], write_leaf n.good rfl n.ge ho hw⟩

theorem NullAt.node (n : NullAt h q F) {m : Node} {w : Val} (ho : m.owner = (h.mem q).owner) (hw : leafOf m = some w) (k : Nat) {h' : Heap}
    (e : h' = h.set q m) : BSim h F q (.ok (k, w)) (.ok k h') := by
  subst e
  exact ⟨rfl, [q], write_leaf n.good rfl n.ge ho hw⟩

theorem set_set (h : Heap) (p : Ptr) (a b : Node) : (h.set p a).set p b = h.set p b := by
  unfold Heap.set
  congr
  funext r
  dsimp only
  split <;> rfl

theorem upd_eq (h : Heap) (p : Ptr) (f : Node → Node) : h.upd p f = h.set p (f (h.mem p)) := rfl

theorem reset_eq (h : Heap) {p : Ptr} (h5 : 5 ≤ p) (t : VT) : reset h p t = h.set p ((h.mem p).reset t) := by
  have : shared p = false := by simp [shared, h5]
  simp [reset, this, upd_eq]

theorem sim_double (n : NullAt h q F) (x : F64) (k : Nat) : BSim h F q (.ok (k, .double x)) (.ok k (setDouble h q x)) := by
  refine n.node (m := { (h.mem q).reset .double with cell := x }) rfl (by simp [leafOf, Node.reset]) k ?_
  have : shared q = false := by simp [shared, n.ge]
  simp [setDouble, this, n.dt, reset_eq h n.ge, upd_eq, set_set]

theorem sim_time (n : NullAt h q F) (x : F64) (k : Nat) : BSim h F q (.ok (k, .dateTime x)) (.ok k (setTime h q x)) := by
  refine n.node (m := { (h.mem q).reset .dateTime with cell := x }) rfl (by simp [leafOf, Node.reset]) k ?_
  simp [setTime, n.dt, reset_eq h n.ge, upd_eq, set_set]

theorem sim_int (n : NullAt h q F) (x : BitVec 64) (k : Nat) : BSim h F q (.ok (k, .int 0 x)) (.ok k (setInt h q x)) := by
  refine n.node (m := { (h.mem q).reset .int with cell := x }) rfl (by simp [leafOf, Node.reset]) k ?_
  simp [setInt, n.dt, reset_eq h n.ge, upd_eq, set_set]

theorem sim_str (n : NullAt h q F) (x : Bytes) (k : Nat) : BSim h F q (.ok (k, .str x)) (.ok k (setString h q x)) := by
  refine n.node (m := { (h.mem q).reset .string with str := x }) rfl (by simp [leafOf, Node.reset]) k ?_
  simp [setString, n.dt, reset_eq h n.ge, upd_eq, set_set]

theorem sim_bin (n : NullAt h q F) (x : UInt8) (d : Bytes) (k : Nat) :
    BSim h F q (.ok (k, .bin x d)) (.ok k (setBinary (h.upd q (fun n => { n with dt := .binary, ext := x })) q d)) := by
  refine n.node (m := { h.mem q with dt := .binary, ext := x, bin := d }) rfl (by simp [leafOf]) k ?_
  simp [setBinary, upd_eq, set_set]

theorem sim_bin0 (n : NullAt h q F) (d : Bytes) (k : Nat) :
    BSim h F q (.ok (k, .bin 0 d)) (.ok k (setBinary ((h.upd q (fun n => { n with dt := .exBinary, ext := 5 })).upd q (fun n => { n with dt := .binary, ext := 0 })) q d)) := by
  refine n.node (m := { h.mem q with dt := .binary, ext := 0, bin := d }) rfl (by simp [leafOf]) k ?_
  simp [setBinary, upd_eq, set_set]

theorem sim_exbin (n : NullAt h q F) (d : Bytes) (k : Nat) :
    BSim h F q (.ok (k, .bin 0 d)) (.ok k (setBinary (h.upd q (fun n => { n with dt := .exBinary, ext := 5 })) q d)) := by
  refine n.node (m := { ({ h.mem q with dt := .exBinary, ext := 5 } : Node).reset .binary with bin := d }) rfl (by simp [leafOf, Node.reset]) k ?_
  have : shared q = false := by simp [shared, n.ge]
  simp [setBinary, upd_eq, set_set, n.bin, reset, this]

/-- Reading after a write that is not yet final. -/
theorem BSim.lift' {α : Type} {h h1 : Heap} {F : List Ptr} {p : Ptr} (r : Res α) {f : α → Res (Nat × Val)} {g : α → Heap → Out Nat}
    (hf : ∀ a, BSim h F p (f a) (g a h1)) : BSim h F p (r >>= f) ((Out.lift r h1).bind g) := by
  cases r with
  | ok a => exact hf a
  | err e => rfl
  | panic => trivial
  | loop => trivial

theorem sim_binary (n : NullAt h q F) (hid b : Bytes) : BSim h F q (Bson.parseBinary hid b) (bsonBinaryH hid b q h) := by
  unfold Bson.parseBinary bsonBinaryH
  dsimp only
  refine BSim.lift' _ (fun m => BSim.lift' _ (fun b => BSim.lift' _ (fun sub => ?_)))
  split
  · refine BSim.lift' _ (fun b => BSim.lift' _ (fun m => BSim.lift' _ (fun b => ?_)))
    split
    · rfl
    · exact BSim.lift' _ (fun d => sim_bin0 n d _)
  · exact BSim.lift' _ (fun d => sim_exbin n d _)

theorem BSim.ite {h : Heap} {F : List Ptr} {p : Ptr} {c : Prop} [Decidable c] {a b : Res (Nat × Val)} {a' b' : Out Nat} (ha : c → BSim h F p a a')
    (hb : ¬ c → BSim h F p b b') : BSim h F p (if c then a else b) (if c then a' else b') := by
  by_cases hc : c
  · rw [if_pos hc, if_pos hc]; exact ha hc
  · rw [if_neg hc, if_neg hc]; exact hb hc

theorem sim_simple (E : Env) (n : NullAt h q F) (hid : Bytes) (ty : UInt8) (b : Bytes) :
    BSim h F q (Bson.parseSimple E hid ty b) (bsonSimpleH E hid ty b q h) := by
  unfold Bson.parseSimple bsonSimpleH
  refine BSim.ite (fun _ => BSim.lift _ (fun w => sim_double n _ _)) (fun _ => ?_)
  refine BSim.ite (fun _ => BSim.lift _ (fun m => ?_)) (fun _ => ?_)
  · dsimp only
    by_cases hm : m = 0
    · simp only [if_pos hm]; trivial
    · simp only [if_neg hm]
      exact BSim.lift _ (fun s => sim_str n _ _)
  refine BSim.ite (fun _ => sim_binary n hid b) (fun _ => ?_)
  refine BSim.ite (fun _ => BSim.lift _ (fun d => sim_bin n 7 d _)) (fun _ => ?_)
  refine BSim.ite (fun _ => BSim.lift _ (fun x => ?_)) (fun _ => ?_)
  · by_cases hx : (x == 1) = true
    · simp only [hx, if_true]
      exact n.leaf rfl (by simp [leafOf]) _
    · simp only [hx]
      exact n.leaf rfl (by simp [leafOf]) _
  refine BSim.ite (fun _ => BSim.lift _ (fun w => sim_time n _ _)) (fun _ => ?_)
  refine BSim.ite (fun _ => BSim.lift _ (fun w => sim_int n _ _)) (fun _ => ?_)
  refine BSim.ite (fun _ => BSim.lift _ (fun w => n.leaf rfl (by simp [leafOf]) _)) (fun _ => ?_)
  refine BSim.ite (fun _ => BSim.lift _ (fun w => sim_int n _ _)) (fun _ => ?_)
  refine BSim.ite (fun _ => BSim.lift _ (fun d => sim_bin n 19 d _)) (fun _ => ?_)
  exact ⟨rfl, F, n.good.upd_refl⟩

end

/-! ## The steps of the tree decoder -/

/-- The element before it is parsed, on trees. -/
def slotVal (tp : VT) (old : Option Val) : Val :=
  match old with
  | some x => settle tp x
  | none => blank tp

theorem slot_eq {tp : VT} {old : Option Val} {w : Val} (s : Slot tp old w) (ht : tp = .object ∨ tp = .array ∨ tp = .null) (hn : old ≠ some .nil) :
    w = slotVal tp old := by
  have hb : ∀ c, blankVal tp c = blank tp := by rcases ht with rfl | rfl | rfl <;> intro c <;> rfl
  unfold Slot at s
  unfold slotVal
  cases old with
  | none => obtain ⟨c, rfl⟩ := s; exact hb c
  | some x =>
    have hx : x ≠ .nil := fun h => hn (by rw [h])
    simp only [hx, ne_eq, not_false_eq_true, true_and] at s
    dsimp only
    unfold settle
    split at s
    · rename_i h; rw [s, if_pos h]
    · rename_i h; obtain ⟨c, rfl⟩ := s; rw [if_neg h, hb]

theorem targetType_cases (ty : UInt8) : targetType ty = .object ∨ targetType ty = .array ∨ targetType ty = .null := by
  unfold targetType
  split
  · exact Or.inr (Or.inl rfl)
  · split
    · exact Or.inl rfl
    · exact Or.inr (Or.inr rfl)

/-- One round of `docLoop`. -/
theorem docLoop_step (E : Env) (hid : Bytes) (fuel : Nat) (b : Bytes) (docLen pi : Nat) (ku : Bool) (kvs : List (Bytes × Val)) :
    Bson.docLoop E hid (fuel + 1) b docLen pi ku kvs =
      if pi < docLen then (at_ b pi >>= fun ty =>
        match (b.drop (pi + 1)).idxOf? 0 with
        | none => .err .invalidBson
        | some k =>
          Bson.parseElem E hid fuel ty (b.drop (pi + 1 + k + 1)) (slotVal (targetType ty) (objOld E ku kvs ((b.drop (pi + 1)).take k))) >>= fun r =>
            if pi + 1 + k + 1 + r.1 = docLen - 1 ∧ b[pi + 1 + k + 1 + r.1]? = some 0 then .ok (objPut E ku kvs ((b.drop (pi + 1)).take k) r.2)
            else Bson.docLoop E hid fuel b docLen (pi + 1 + k + 1 + r.1) (setKeyValueObj E ku kvs ((b.drop (pi + 1)).take k) r.2).1
              (setKeyValueObj E ku kvs ((b.drop (pi + 1)).take k) r.2).2)
      else .ok (.obj ku kvs) := by
  rw [Bson.docLoop]
  split
  · congr 1
    funext ty
    dsimp only
    cases hk : (b.drop (pi + 1)).idxOf? 0 with
    | none => simp only []
    | some k =>
      simp only []
      generalize (b.drop (pi + 1)).take k = key
      have hl := indexByName_snd E ku kvs key
      unfold objOld objPut setKeyValueObj
      rcases hi : indexByName E ku kvs key with ⟨i, ku', kvs'⟩
      rw [hi] at hl
      simp only at hl
      cases i with
      | some i =>
        have hlt : i < kvs.length := indexByName_lt E ku kvs key (by rw [hi])
        have e : (Option.map Prod.snd kvs'[i]?).getD .nil = ((kvs.map Prod.snd)[i]?).getD .nil := by rw [← hl, List.getElem?_map]
        have e2 : (kvs.map Prod.snd)[i]? = some (((kvs.map Prod.snd)[i]?).getD .nil) := by
          rw [List.getElem?_eq_getElem (by simpa using hlt)]; rfl
        simp only [Option.bind_some]
        rw [e2]
        simp only [slotVal, e]
      | none => simp only [Option.bind_none, slotVal]
  · rfl

/-- One round of `arrLoop`. -/
theorem arrLoop_step (E : Env) (hid : Bytes) (fuel : Nat) (b : Bytes) (docLen pi : Nat) (xs : List Val) :
    Bson.arrLoop E hid (fuel + 1) b docLen pi xs =
      if pi < docLen then (at_ b pi >>= fun ty =>
        match (b.drop (pi + 1)).idxOf? 0 with
        | none => .err .invalidBson
        | some k =>
          let idx : Int := ((E.strToInt ((b.drop (pi + 1)).take k)).map BitVec.toInt).getD (-1)
          if idx = -1 then .err .bsonArrayIndex
          else
            Bson.parseElem E hid fuel ty (b.drop (pi + 1 + k + 1)) (slotVal (targetType ty) (arrOld xs idx)) >>= fun r =>
            if pi + 1 + k + 1 + r.1 = docLen - 1 ∧ b[pi + 1 + k + 1 + r.1]? = some 0 then .ok (arrPut xs idx r.2)
            else Bson.arrLoop E hid fuel b docLen (pi + 1 + k + 1 + r.1) (if inRange idx xs.length then xs.set idx.toNat r.2 else xs ++ [r.2]))
      else .ok (.arr xs) := by
  rw [Bson.arrLoop]
  split
  · congr 1
    funext ty
    dsimp only
    cases hk : (b.drop (pi + 1)).idxOf? 0 with
    | none => simp only []
    | some k =>
      simp only []
      generalize ((E.strToInt ((b.drop (pi + 1)).take k)).map BitVec.toInt).getD (-1) = idx
      split
      · rfl
      · have hr : inRange idx xs.length = true ↔ (0 ≤ idx ∧ idx.toNat < xs.length) := by rw [inRange_iff]; omega
        unfold arrOld arrPut
        by_cases hin : inRange idx xs.length = true
        · rw [if_pos (hr.1 hin)]
          have e2 : xs[idx.toNat]? = some ((xs[idx.toNat]?).getD .nil) := by
            rw [List.getElem?_eq_getElem (hr.1 hin).2]; rfl
          simp only [if_pos hin]
          rw [e2]
          simp only [slotVal]
          rfl
        · rw [if_neg (fun h => hin (hr.2 h))]
          simp only [if_neg hin, slotVal]
  · rfl

/-! ## The simulation -/

/-- No nil member in a solid object. -/
theorem Solid.noNil {S : Ptr → Prop} {h : Heap} (s : Solid S h) {p : Ptr} (hp : S p) (E : Env) {ku : Bool} {kvs : List (Bytes × Val)} {F : List Ptr}
    (g : Good h (some p) (.obj ku kvs) F) (name : Bytes) : objOld E ku kvs name ≠ some .nil := by
  intro hc
  obtain ⟨F0, rfl, h5, hdt, hku, hm, -, -, -⟩ := g.obj_inv
  unfold objOld at hc
  rw [Option.bind_eq_some_iff] at hc
  obtain ⟨i, -, hi⟩ := hc
  obtain ⟨b, Fi, hb, gi, -, -⟩ := g.kid (i := i) (x := .nil) (by simpa [Val.kids] using hi)
  have hnone : b = none := gi.rep.1
  subst hnone
  rw [kids_obj hdt] at hb
  obtain ⟨q, e, -⟩ := s.kvs p hp none (List.mem_of_getElem? hb)
  cases e

theorem Solid.noNilArr {S : Ptr → Prop} {h : Heap} (s : Solid S h) {p : Ptr} (hp : S p) {xs : List Val} {F : List Ptr}
    (g : Good h (some p) (.arr xs) F) (idx : Int) : arrOld xs idx ≠ some .nil := by
  intro hc
  have hdt : (h.mem p).dt = .array := rep_dt g.rep
  unfold arrOld at hc
  split at hc
  · obtain ⟨b, Fi, hb, gi, -, -⟩ := g.kid (i := idx.toNat) (x := .nil) (by simpa [Val.kids] using hc)
    have hnone : b = none := gi.rep.1
    subst hnone
    rw [kids_arr hdt] at hb
    obtain ⟨q, e, -⟩ := s.arr p hp hdt none (List.mem_of_getElem? hb)
    cases e
  · cases hc


/-- All decoders of one level of fuel. -/
structure BsonSim (E : Env) (hid : Bytes) (c : Option CId) (fuel : Nat) : Prop where
  doc : ∀ S h b p ku kvs F, Good h (some p) (.obj ku kvs) F → Solid S h → (∀ d, c = some d → d < h.nextC) → S p →
    BSim h F p (Bson.parseDoc E hid fuel b ku kvs) (bsonDocH E hid c fuel b p h)
  docLoop : ∀ S h b l i p ku kvs F, Good h (some p) (.obj ku kvs) F → Solid S h → (∀ d, c = some d → d < h.nextC) → S p →
    BLoop h F p (Bson.docLoop E hid fuel b l i ku kvs) (bsonDocLoopH E hid c fuel b l i p h)
  elem : ∀ S h ty b q w F, Good h (some q) w F → w.vt = targetType ty → w ≠ .nil → Solid S h → (∀ d, c = some d → d < h.nextC) → S q → 5 ≤ q →
    BSim h F q (Bson.parseElem E hid fuel ty b w) (bsonElemH E hid c fuel ty b q h)
  arr : ∀ S h b p xs F, Good h (some p) (.arr xs) F → Solid S h → (∀ d, c = some d → d < h.nextC) → S p →
    BSim h F p (Bson.parseArr E hid fuel b xs) (bsonArrH E hid c fuel b p h)
  arrLoop : ∀ S h b l i p xs F, Good h (some p) (.arr xs) F → Solid S h → (∀ d, c = some d → d < h.nextC) → S p →
    BLoop h F p (Bson.arrLoop E hid fuel b l i xs) (bsonArrLoopH E hid c fuel b l i p h)

/-- An element, then the rest of the loop. -/
theorem BLoop.elem {S1 : Ptr → Prop} {h h1 : Heap} {F F1 Fq : List Ptr} {p q : Ptr} {v : Val} {i : Nat} (u : Upd h F h1 (some p) v F1)
    (hupd : ∀ X h' x' Fi', UpdX X h1 Fq h' (some q) x' Fi' → (∀ q ∈ X, q ∉ F1) → ∃ F', UpdX X h1 F1 h' (some p) (Val.setKid v i x') F')
    {x : Res (Nat × Val)} {y : Out Nat} (b : BSim h1 Fq q x y) (k : HoldS S1 h1 y) {f : Nat × Val → Res Val} {g : Nat → Heap → Out Unit}
    (hf : ∀ n w h2 F2 S2, Step anyCache h1 h2 → Solid S2 h2 → (∀ x, S1 x → S2 x) → Upd h F h2 (some p) (Val.setKid v i w) F2 → BLoop h F p (f (n, w)) (g n h2)) :
    BLoop h F p (x >>= f) (y.bind g) := by
  match x, y, b, k with
  | .ok (n, w), .ok _ h2, ⟨rfl, F', u'⟩, ⟨st, S2, s2, hs⟩ =>
    obtain ⟨F2, u2⟩ := hupd [] h2 w F' u' (by simp)
    exact hf n w h2 F2 S2 st s2 hs (u.trans u2)
  | .err e, .err e' _, r, _ => exact r
  | .panic, .panic, _, _ => trivial
  | .loop, .loop, _, _ => trivial

theorem bsonSim (E : Env) (hid : Bytes) (c : Option CId) : ∀ fuel, BsonSim E hid c fuel := by
  intro fuel
  induction fuel with
  | zero =>
    refine ⟨?_, ?_, ?_, ?_, ?_⟩ <;> intros <;> simp [Bson.parseDoc, Bson.docLoop, Bson.parseElem, Bson.parseArr, Bson.arrLoop, bsonDocH, bsonDocLoopH, bsonElemH,
      bsonArrH, bsonArrLoopH, BSim, BLoop]
  | succ fuel ih =>
    refine ⟨?_, ?_, ?_, ?_, ?_⟩
    · intro S h b p ku kvs F g s hc hp
      rw [Bson.parseDoc, bsonDocH]
      split
      · rfl
      · refine BSim.lift _ (fun l => ?_)
        split
        · rfl
        · exact BSim.loop (ih.docLoop S h b l 4 p ku kvs F g s hc hp) l
    · intro S h b l i p ku kvs F g s hc hp
      rw [docLoop_step, bsonDocLoopH]
      split
      · refine BLoop.lift _ (fun ty => ?_)
        cases hk : (b.drop (i + 1)).idxOf? 0 with
        | none => rfl
        | some k =>
          dsimp only
          generalize (b.drop (i + 1)).take k = key
          have hnil := s.noNil hp E g key
          obtain ⟨q, h1, w, F1, he, u, hkid, h5, hs⟩ := setKeyCached_obj E g key (targetType ty) c hc hnil
          obtain ⟨S1, f⟩ := s.setKeyCached g.inv E hp _ _ c hc he
          have st := g.inv.setKeyCached_st (X := anyCache) E p _ _ c hc (by simp) (by simp) he
          have hc1 : ∀ d, c = some d → d < h1.nextC := fun d e => Nat.lt_of_lt_of_le (hc d e) st.nextC
          obtain ⟨b', Fq, hb, gq, -, hupd⟩ := u.good.kid (kids_objPut E ku kvs key w)
          rw [hkid] at hb
          cases hb
          rw [he, ← slot_eq hs (targetType_cases ty) hnil]
          refine BLoop.elem u hupd (ih.elem S1 h1 ty _ q w Fq gq hs.vt.1 hs.vt.2 f.solid hc1 f.mem f.ge)
            ((bkeeps E hid c fuel).elem S1 h1 ty _ q st.inv f.solid hc1 f.mem f.ge) ?_
          intro n w' h2 F2 S2 st2 s2 hs2 u2
          rw [setKid_objPut] at u2
          dsimp only
          split
          · exact ⟨F2, u2⟩
          · exact BLoop.after u2 (ih.docLoop S2 h2 b l _ p _ _ F2 u2.good s2 (fun d e => Nat.lt_of_lt_of_le (hc1 d e) st2.nextC) (hs2 p (f.le p hp)))
      · exact ⟨F, g.upd_refl⟩
    · intro S h ty b q w F g hw hn s hc hq h5
      rw [bsonElemH]
      unfold Bson.parseElem
      unfold targetType at hw
      refine BSim.ite (fun h4 => ?_) (fun h4 => ?_)
      · rw [if_pos h4] at hw
        obtain ⟨xs, rfl⟩ := vt_arr hw hn
        exact ih.arr S h b q xs F g s hc hq
      · rw [if_neg h4] at hw
        refine BSim.ite (fun h3 => ?_) (fun h3 => ?_)
        · rw [if_pos h3] at hw
          obtain ⟨ku, kvs, rfl⟩ := vt_obj hw hn
          exact ih.doc S h b q ku kvs F g s hc hq
        · rw [if_neg h3] at hw
          have : w = .null := by cases w <;> simp [Val.vt] at hw hn ⊢
          subst this
          exact sim_simple E ⟨g, h5, s.bin q hq (rep_dt g.rep)⟩ hid ty b
    · intro S h b p xs F g s hc hp
      rw [Bson.parseArr, bsonArrH]
      refine BSim.lift _ (fun l => ?_)
      split
      · rfl
      · exact BSim.loop (ih.arrLoop S h b l 4 p xs F g s hc hp) l
    · intro S h b l i p xs F g s hc hp
      have hp5 : 5 ≤ p := by obtain ⟨F0, -, h5, -⟩ := g.arr_inv; exact h5
      rw [arrLoop_step, bsonArrLoopH]
      split
      · refine BLoop.lift _ (fun ty => ?_)
        cases hk : (b.drop (i + 1)).idxOf? 0 with
        | none => rfl
        | some k =>
          dsimp only
          generalize ((E.strToInt ((b.drop (i + 1)).take k)).map BitVec.toInt).getD (-1) = idx
          split
          · rfl
          · have hnil := s.noNilArr hp g idx
            obtain ⟨w, F1, u, hkid, hs, -⟩ := setIndexCached_arr g idx (targetType ty) c hc
            obtain ⟨S1, f⟩ := s.setIndexCached g.inv hp hp5 idx (targetType ty) c hc
            have st := g.inv.setIndexCached_st (X := anyCache) p idx (targetType ty) c hc (by simp)
            generalize setIndexCached h p idx (targetType ty) c = r at u hkid f st
            have hc1 : ∀ d, c = some d → d < r.2.nextC := fun d e => Nat.lt_of_lt_of_le (hc d e) st.nextC
            obtain ⟨b', Fq, hb, gq, -, hupd⟩ := u.good.kid (kids_arrPut xs idx w)
            rw [hkid] at hb
            cases hb
            rw [← slot_eq hs (targetType_cases ty) hnil]
            refine BLoop.elem u hupd (ih.elem S1 r.2 ty _ r.1 w Fq gq hs.vt.1 hs.vt.2 f.solid hc1 f.mem f.ge)
              ((bkeeps E hid c fuel).elem S1 r.2 ty _ r.1 st.inv f.solid hc1 f.mem f.ge) ?_
            intro n w' h2 F2 S2 st2 s2 hs2 u2
            rw [setKid_arrPut] at u2
            dsimp only
            split
            · exact ⟨F2, u2⟩
            · exact BLoop.after u2 (ih.arrLoop S2 h2 b l _ p _ F2 u2.good s2 (fun d e => Nat.lt_of_lt_of_le (hc1 d e) st2.nextC) (hs2 p (f.le p hp)))
      · exact ⟨F, g.upd_refl⟩

/-! ## The calls of the user -/

/-- The outcome of a loader in memory is the outcome on trees, bit for bit. -/
def LoadsX (h : Heap) : Res Val → Out (Option Ptr) → Prop
  | .ok v, .ok a h' => ∃ F, MadeO h a h' v F
  | .err e, .err e' h' => e' = e ∧ Inv h'
  | .panic, .panic => True
  | .loop, .loop => True
  | _, _ => False

/-- The memory is in order after the call. -/
def Out.Ok {α : Type} : Out α → Prop
  | .ok _ h => Inv h
  | .err _ h => Inv h
  | _ => True

theorem HoldS.ok {α : Type} {S : Ptr → Prop} {h : Heap} {x : Out α} (k : HoldS S h x) : x.Ok := by
  match x, k with
  | .ok _ _, k => exact k.1.inv
  | .err _ _, k => exact k.1.inv
  | .panic, _ => trivial
  | .loop, _ => trivial

theorem Out.Ok.map {α β : Type} {x : Out α} (k : x.Ok) (f : α → β) : (x.bind fun a h => .ok (f a) h).Ok := by
  match x, k with
  | .ok _ _, k => exact k
  | .err _ _, k => exact k
  | .panic, _ => trivial
  | .loop, _ => trivial

theorem solid_new {h : Heap} {p : Ptr} (hp : p < h.next) (hn : ∀ S, NodeOk S (h.mem p)) : Solid (fun q => q = p) h := by
  refine Solid.mk' ?_ ?_
  · rintro _ rfl; exact hp
  · rintro _ rfl; exact hn _

theorem solid_blank {h : Heap} (I : Inv h) (c : Option CId) (t : VT) (hc : ∀ d, c = some d → d < h.nextC) :
    Solid (fun q => q = (getValue h c t).1) (getValue h c t).2 := by
  have A := getValue_spec I c t hc
  refine solid_new ?_ (fun _ => NodeOk.blank A.blank)
  rcases Nat.lt_or_ge (Heap.getValue h c t).1 (Heap.getValue h c t).2.next with h1 | h1
  · exact h1
  · exact absurd (Or.inl h1) A.isnt

theorem clear_mem (h : Heap) (p : Ptr) : (Heap.clear h p).mem p = (h.mem p).clear := by
  unfold Heap.clear
  rw [upd_mem_same]
  cases (h.mem p).owner <;> rfl

theorem clear_next (h : Heap) (p : Ptr) : (Heap.clear h p).next = h.next := by
  unfold Heap.clear
  cases (h.mem p).owner <;> rfl

theorem nodeOk_clear (S : Ptr → Prop) (n : Node) : NodeOk S n.clear := by
  unfold Node.clear
  split <;> constructor <;> simp_all

theorem solid_clear {h : Heap} {p : Ptr} (hp : p < h.next) : Solid (fun q => q = p) (Heap.clear h p) :=
  solid_new (by rw [clear_next]; exact hp) (fun S => by rw [clear_mem]; exact nodeOk_clear S _)

theorem bsonRootH_ok (E : Env) (hid : Bytes) {h : Heap} (I : Inv h) (b : Bytes) (c : Option CId) (hc : ∀ d, c = some d → d < h.nextC) :
    (bsonRootH E hid h b c).Ok := by
  unfold bsonRootH
  have st := I.getValue_st (X := anyCache) c .object hc (by simp)
  exact ((bkeeps E hid c _).doc _ _ b _ st.inv (solid_blank I c .object hc) (fun d e => Nat.lt_of_lt_of_le (hc d e) st.nextC) rfl).ok.map _

/-- After `NewValueFromBson` the memory is in order, whatever the bytes. -/
theorem newValueFromBsonH_ok (E : Env) (hid : Bytes) {h : Heap} (I : Inv h) (b : Bytes) (useCache : Bool) (pick : Option Nat) :
    (newValueFromBsonH E hid h b useCache pick).Ok := by
  unfold newValueFromBsonH
  cases useCache with
  | false => exact bsonRootH_ok E hid I b none (by simp)
  | true =>
    obtain ⟨I1, hlt⟩ := I.getCache pick
    exact bsonRootH_ok E hid I1 b _ (by intro d hd; cases hd; exact hlt)

/-- After `LoadFromBson` the memory is in order, whatever the bytes and the value, also on the shared constants. -/
theorem loadBsonH_ok (E : Env) (hid : Bytes) {h : Heap} (I : Inv h) {p : Ptr} (hp : p < h.next) (b : Bytes) : (loadBsonH E hid h p b).Ok := by
  unfold loadBsonH
  have I1 := I.clear p
  dsimp only
  split
  · exact I1
  · exact ((bkeeps E hid _ _).doc _ _ b p I1 (solid_clear hp) (fun d e => I1.owner p d e) rfl).ok.map _

theorem BSim.made {h h1 : Heap} {p : Ptr} (A : Allocated h p h1 .object) {x : Res (Nat × Val)} {y : Out Nat} (s : BSim h1 [p] p x y) (k : y.Ok) :
    LoadsX h (x >>= fun nv => .ok nv.2) (y.bind fun _ h => .ok (some p) h) := by
  match x, y, s, k with
  | .ok (_, v), .ok _ _, ⟨_, F', u⟩, _ => exact ⟨F', (Made.of A u).opt⟩
  | .err _, .err _ _, e, k => exact ⟨e, k⟩
  | .panic, .panic, _, _ => trivial
  | .loop, .loop, _, _ => trivial

theorem bsonRootH_spec (E : Env) (hid : Bytes) {h : Heap} (I : Inv h) (b : Bytes) (c : Option CId) (hc : ∀ d, c = some d → d < h.nextC) :
    LoadsX h (Bson.newValueFromBson E hid b) (bsonRootH E hid h b c) := by
  have A := getValue_spec I c .object hc
  have st := I.getValue_st (X := anyCache) c .object hc (by simp)
  have hc' : ∀ d, c = some d → d < (getValue h c .object).2.nextC := fun d e => Nat.lt_of_lt_of_le (hc d e) st.nextC
  have s := (bsonSim E hid c (2 * b.length + 2)).doc _ _ b _ false [] [_] A.good (solid_blank I c .object hc) hc' rfl
  have k := ((bkeeps E hid c (2 * b.length + 2)).doc _ _ b _ st.inv (solid_blank I c .object hc) hc' rfl).ok
  exact BSim.made A s k

theorem LoadsX.after {h h1 : Heap} (f : Frame h [] h1) {x : Res Val} {y : Out (Option Ptr)} (l : LoadsX h1 x y) : LoadsX h x y := by
  match x, y, l with
  | .ok _, .ok _ _, ⟨F, m⟩ => exact ⟨F, m.after f⟩
  | .err _, .err _ _, l => exact l
  | .panic, .panic, _ => trivial
  | .loop, .loop, _ => trivial

/-- `NewValueFromBson` in memory. -/
theorem newValueFromBsonH_spec (E : Env) (hid : Bytes) {h : Heap} (I : Inv h) (b : Bytes) (useCache : Bool) (pick : Option Nat) :
    LoadsX h (Bson.newValueFromBson E hid b) (newValueFromBsonH E hid h b useCache pick) := by
  unfold newValueFromBsonH
  cases useCache with
  | false => exact bsonRootH_spec E hid I b none (by simp)
  | true =>
    obtain ⟨I1, hlt⟩ := I.getCache pick
    exact LoadsX.after (Frame.getCache I pick) (bsonRootH_spec E hid I1 b _ (by intro d hd; cases hd; exact hlt))

/-! ## `LoadFromBson` -/

/-- The values a document can be loaded into: objects, and others than arrays if the document has a member. -/
def TakesB (w v : Val) : Prop := w.vt = .object ∧ w ≠ .nil ∨ w.vt ≠ .array ∧ v ≠ .obj false []

/-- The first member makes the value an object. -/
theorem docLoopH_reset (E : Env) (hid : Bytes) (c : Option CId) (fuel : Nat) (b : Bytes) (l : Nat) (p : Ptr) (h5 : 5 ≤ p) (h h' : Heap)
    (ho : (h.mem p).dt ≠ .object) (ha : (h.mem p).dt ≠ .array) (hl : 4 < l) {u : Unit}
    (e : bsonDocLoopH E hid c fuel b l 4 p (reset h p .object) = .ok u h') : bsonDocLoopH E hid c fuel b l 4 p h = .ok u h' := by
  cases fuel with
  | zero => rw [bsonDocLoopH] at e; cases e
  | succ fuel =>
    rw [bsonDocLoopH, if_pos hl] at e ⊢
    cases hb : at_ b 4 with
    | ok ty =>
      rw [hb] at e
      simp only [Out.lift, Out.bind] at e ⊢
      cases hk : (b.drop (4 + 1)).idxOf? 0 with
      | none => rw [hk] at e; cases e
      | some k =>
        rw [hk] at e
        dsimp only at e ⊢
        rw [setKeyCached_reset E h5 _ _ c ho (by simp [ha])]
        exact e
    | err _ => rw [hb] at e; cases e
    | panic => rw [hb] at e; cases e
    | loop => rw [hb] at e; cases e

theorem docLoop_short (E : Env) (hid : Bytes) (fuel : Nat) (b : Bytes) {l i : Nat} (hl : ¬ i < l) {ku : Bool} {kvs : List (Bytes × Val)} {v : Val}
    (e : Bson.docLoop E hid fuel b l i ku kvs = .ok v) : v = .obj ku kvs := by
  cases fuel with
  | zero => rw [Bson.docLoop] at e; cases e
  | succ fuel => rw [docLoop_step, if_neg hl] at e; cases e; rfl

theorem docH_reset (E : Env) (hid : Bytes) (c : Option CId) (fuel : Nat) (b : Bytes) (p : Ptr) (h5 : 5 ≤ p) (h h' : Heap)
    (ho : (h.mem p).dt ≠ .object) (ha : (h.mem p).dt ≠ .array) {m n : Nat} {v : Val} (hv : v ≠ .obj false [])
    (t : Bson.parseDoc E hid fuel b false [] = .ok (n, v))
    (e : bsonDocH E hid c fuel b p (reset h p .object) = .ok m h') : bsonDocH E hid c fuel b p h = .ok m h' := by
  cases fuel with
  | zero => rw [bsonDocH] at e; cases e
  | succ fuel =>
    rw [bsonDocH] at e ⊢
    rw [Bson.parseDoc] at t
    split at e
    · cases e
    · rename_i hb
      simp only [if_neg hb] at t ⊢
      cases hu : uint32 hid b with
      | ok l =>
        rw [hu] at e t
        simp only [Out.lift, Out.bind] at e ⊢
        simp only [Res.bind_ok] at t
        split at e
        · cases e
        · rename_i hl
          simp only [if_neg hl] at t ⊢
          rw [Res.bind_eq_ok] at t
          obtain ⟨o, h1, h2⟩ := t
          cases h2
          by_cases h4 : 4 < n
          · cases hd : bsonDocLoopH E hid c fuel b n 4 p (reset h p .object) with
            | ok u h2 => rw [hd] at e; rw [docLoopH_reset E hid c fuel b n p h5 h h2 ho ha h4 hd]; exact e
            | err _ _ => rw [hd] at e; cases e
            | panic => rw [hd] at e; cases e
            | loop => rw [hd] at e; cases e
          · exact absurd (docLoop_short E hid fuel b h4 h1) hv
      | err _ => rw [hu] at e; cases e
      | panic => rw [hu] at e; cases e
      | loop => rw [hu] at e; cases e

theorem newValueFromBson_nonempty (E : Env) (hid : Bytes) {b : Bytes} {v : Val} (ho : Bson.newValueFromBson E hid b = .ok v) : b ≠ [] := by
  rintro rfl
  simp [Bson.newValueFromBson, Bson.parseDoc] at ho

/-- `LoadFromBson` of a document into a value that takes it. -/
theorem loadBsonH_spec (E : Env) (hid : Bytes) {h : Heap} (O : Own h) {p : Ptr} (h5 : 5 ≤ p) {b : Bytes} {v w : Val} {F : List Ptr} (g : Good h (some p) w F)
    (ho : Bson.newValueFromBson E hid b = .ok v) (ht : TakesB w v) :
    ∃ h' F', loadBsonH E hid h p b = .ok () h' ∧ Good h' (some p) v F' := by
  have hb := newValueFromBson_nonempty E hid ho
  unfold Bson.newValueFromBson at ho
  rw [Res.bind_eq_ok] at ho
  obtain ⟨⟨n, v'⟩, ho, e⟩ := ho
  cases e
  have gc := g.clear O h5
  have hp : p < (Heap.clear h p).next := by
    have := gc.live p (by simp)
    rcases Nat.lt_or_ge p (Heap.clear h p).next with h1 | h1
    · exact h1
    · exact absurd (Or.inl h1) this
  have hc : ∀ d, ((Heap.clear h p).mem p).owner = some d → d < (Heap.clear h p).nextC := fun d => gc.inv.owner p d
  unfold loadBsonH
  simp only [if_neg hb]
  have s1 : Solid (fun q => q = p) (Heap.clear h p) := solid_clear (by rw [clear_next] at hp; exact hp)
  by_cases hw : w.vt = .object ∧ w ≠ .nil
  · obtain ⟨ku, kvs, rfl⟩ := vt_obj hw.1 hw.2
    have s := (bsonSim E hid ((Heap.clear h p).mem p).owner (2 * b.length + 2)).doc _ _ b p false [] [p] gc s1 hc rfl
    rw [ho] at s
    match hx : bsonDocH E hid ((Heap.clear h p).mem p).owner (2 * b.length + 2) b p (Heap.clear h p), s with
    | .ok _ h', ⟨_, F', u⟩ => exact ⟨h', F', rfl, u.good⟩
  · rcases ht with ht | ⟨ha, hv⟩
    · exact absurd ht hw
    · have hdt := rep_dt g.rep
      have hn : w ≠ .nil := by
        rintro rfl
        have := g.rep.1
        cases this
      have hcd : ((Heap.clear h p).mem p).dt = w.vt := by rw [clear_mem, Node.clear_dt, hdt]
      have ur := reset_upd gc h5 .object
      have hcr : ∀ d, ((Heap.clear h p).mem p).owner = some d → d < (reset (Heap.clear h p) p .object).nextC := by
        intro d hd; rw [(Same.reset (Heap.clear h p) p .object).nextC]; exact hc d hd
      have s := (bsonSim E hid ((Heap.clear h p).mem p).owner (2 * b.length + 2)).doc _ _ b p false [] [p] ur.good (s1.reset p .object) hcr rfl
      rw [ho] at s
      match hx : bsonDocH E hid ((Heap.clear h p).mem p).owner (2 * b.length + 2) b p (reset (Heap.clear h p) p .object), s with
      | .ok _ h', ⟨_, F', u⟩ =>
        rw [docH_reset E hid _ _ b p h5 _ h' (by rw [hcd]; exact fun h => hw ⟨h, hn⟩) (by rw [hcd]; exact ha) hv ho hx]
        exact ⟨h', F', rfl, u.good⟩

end Dxs.Heap
