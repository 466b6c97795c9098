import Verif.MsgPack.Back
import Verif.Props.MsgPackWire

/-! # C138: what each MessagePack item is read as; which values come back as they were -/

namespace Dxs.MsgPack
open Spec
variable {E : Env}

theorem mvalM_names : ∀ kvs : List (Bytes × MData), (mvalM E kvs).map Prod.fst = kvs.map Prod.fst
  | [] => rfl
  | (k, d) :: kvs => by simp [mvalM, mvalM_names kvs]

theorem mvalM_length (kvs : List (Bytes × MData)) : (mvalM E kvs).length = kvs.length := by
  have := congrArg List.length (mvalM_names (E := E) kvs)
  simpa using this

theorem mvalL_length : ∀ ds : List MData, (mvalL E ds).length = ds.length
  | [] => rfl
  | d :: ds => by simp [mvalL, mvalL_length ds]

theorem leaf_wire (d : MData) (bs r : Bytes) (hl : leaf d = true) (h : Enc d bs) (hf : Fits d) : Wire E false (mval E d) bs r := by
  refine .spec d _ bs r hl h hf ?_
  cases d with
  | arr | map => cases hl
  | int n =>
    refine ⟨_, rfl, ?_⟩
    have := hf.1
    have := hf.2
    rw [BitVec.toInt_ofInt]
    exact Int.bmod_eq_of_le (by simp; omega) (by simp; omega)
  | _ => rfl

mutual
theorem wire_of : ∀ (d : MData) (bs r : Bytes), Enc d bs → Fits d → Wire E false (mval E d) bs r
  | .arr ds, _, r, ⟨h, body, hh, hb, e⟩, hf => by
    rw [e, mval]
    exact .arr h _ body r (by rw [mvalL_length]; exact hh) (wires_of ds body r hb hf)
  | .map [], _, r, ⟨h, body, hh, hb, e⟩, hf => by
    rw [EncM] at hb
    rw [e, hb, List.append_nil]
    exact .map0 h r hh
  | .map ((k, d) :: kvs), _, r, ⟨h, body, hh, ⟨kh, b1, b2, hk, hd, hm, e2⟩, e⟩, hf => by
    rw [e, e2, mval, mvalM]
    have := Wire.map (E := E) (loose := false) h kh k (mval E d) b1 (mvalM E kvs) b2 r (by rw [mvalM_length]; exact hh) hk (wire_of d b1 (b2 ++ r) hd hf.1) (pairs_of kvs b2 r hm hf.2)
    simpa using this
  | .nil, bs, r, h, hf => leaf_wire _ bs r rfl h hf
  | .bool _, bs, r, h, hf => leaf_wire _ bs r rfl h hf
  | .int _, bs, r, h, hf => leaf_wire _ bs r rfl h hf
  | .f32 _, bs, r, h, hf => leaf_wire _ bs r rfl h hf
  | .f64 _, bs, r, h, hf => leaf_wire _ bs r rfl h hf
  | .str _, bs, r, h, hf => leaf_wire _ bs r rfl h hf
  | .bin _, bs, r, h, hf => leaf_wire _ bs r rfl h hf
  | .ext _ _, bs, r, h, hf => leaf_wire _ bs r rfl h hf
  | .ts _ _, bs, r, h, hf => leaf_wire _ bs r rfl h hf
theorem wires_of : ∀ (ds : List MData) (bs r : Bytes), EncL ds bs → FitsL ds → Wires E false (mvalL E ds) bs r
  | [], _, r, h, _ => by rw [EncL] at h; rw [h]; exact .nil r
  | d :: ds, _, r, ⟨b1, b2, h1, h2, e⟩, hf => by
    rw [e]
    exact .cons _ _ b1 b2 r (wire_of d b1 (b2 ++ r) h1 hf.1) (wires_of ds b2 r h2 hf.2)
theorem pairs_of : ∀ (kvs : List (Bytes × MData)) (bs r : Bytes), EncM kvs bs → FitsM kvs → Pairs E false (mvalM E kvs) bs r
  | [], _, r, h, _ => by rw [EncM] at h; rw [h]; exact .nil r
  | (k, d) :: kvs, _, r, ⟨h, b1, b2, hk, h1, h2, e⟩, hf => by
    rw [e, mvalM]
    have := Pairs.cons (E := E) (loose := false) k (mval E d) (mvalM E kvs) h b1 b2 r (.inl hk) (wire_of d b1 (b2 ++ r) h1 hf.1) (pairs_of kvs b2 r h2 hf.2)
    simpa using this
end

/-- **C138**: what every item of the MessagePack specification is read as, in whatever form it is written and whatever follows it. -/
theorem C138_reading (E : Env) (d : MData) (bs rest : Bytes) (h : Enc d bs) (hf : Fits d) : parse E (bs ++ rest) = .ok (mval E d, rest) := by
  unfold parse
  exact wire_parse (wire_of d bs rest h hf) _ (by simp)

/-- C138 for the exported function. -/
theorem C138_value (E : Env) (d : MData) (bs rest : Bytes) (h : Enc d bs) (hf : Fits d) : newValueFromMsgPack E (bs ++ rest) = .ok (mval E d) := by
  simp [newValueFromMsgPack, C138_reading E d bs rest h hf]

/-- All the forms of one item are read alike. -/
theorem C138_forms (E : Env) (d : MData) (bs bs' : Bytes) (h : Enc d bs) (h' : Enc d bs') (hf : Fits d) : newValueFromMsgPack E bs = newValueFromMsgPack E bs' := by
  have h1 := C138_value E d bs [] h hf
  have h2 := C138_value E d bs' [] h' hf
  rw [List.append_nil] at h1 h2
  rw [h1, h2]

/-- What a value comes back as from Value2MsgPack and NewValueFromMsgPack. -/
theorem C138_back (E : Env) (v : Val) (rest : Bytes) (h : Supported v) : newValueFromMsgPack E (value2MsgPack E v ++ rest) = .ok (mval E (data E v)) :=
  C138_value E _ _ rest (enc_sound E v h) (fits_data E v)

theorem putAll_keeps_distinct {α : Type} {m : Bytes → Bytes → Bool} : ∀ (kvs acc : List (Bytes × α)), Assoc.Distinct m acc → Assoc.Distinct m (Assoc.putAll m acc kvs)
  | [], _, h => h
  | kv :: kvs, _, h => putAll_keeps_distinct kvs _ (Assoc.put_distinct h kv.1 kv.2)

theorem dataM_same_names : ∀ kvs : List (Bytes × Val), (mvalM E (dataM E kvs)).map Prod.fst = kvs.map Prod.fst
  | [] => rfl
  | (k, v) :: kvs => by simp [dataM, mvalM, dataM_same_names kvs]

mutual
theorem stays_iff (E : Env) : ∀ v : Val, mval E (data E v) = v ↔ Stays E v
  | .nil | .raw _ | .nan | .inf => by simp [data, mval, Stays]
  | .null | .tru | .fls | .double _ | .str _ => by simp [data, mval, Stays]
  | .int e c => by simp [data, mval, Stays, eq_comm]
  | .float c => by simp [data, mval, Stays]
  | .dateTime c => by simp [data, mval, Stays]
  | .bin e b => by simp [data, mval, Stays, eq_comm]
  | .exbin e [] => by simp [data, mval, Stays]
  | .exbin e (x :: b) => by simp [data, mval, Stays, eq_comm]
  | .arr xs => by simp only [data, mval, Stays, Val.arr.injEq]; exact staysL_iff E xs
  | .obj ku kvs => by
    simp only [data, mval, Stays, Val.obj.injEq]
    have hl : (dataM E kvs).isEmpty = kvs.isEmpty := by cases kvs <;> rfl
    have hk : Assoc.Distinct E.keyMatch (mvalM E (dataM E kvs)) ↔ Assoc.Distinct E.keyMatch kvs := by
      unfold Assoc.Distinct
      rw [dataM_same_names]
    rw [hl, ← staysM_iff E kvs]
    constructor
    · rintro ⟨h1, h2⟩
      have hd : Assoc.Distinct E.keyMatch kvs := by rw [← h2]; exact putAll_keeps_distinct _ _ (by simp [Assoc.Distinct])
      exact ⟨h1.symm, hd, by rw [Assoc.lastWins_distinct (hk.2 hd)] at h2; exact h2⟩
    · rintro ⟨h1, hd, h2⟩
      exact ⟨h1.symm, by rw [Assoc.lastWins_distinct (hk.2 hd)]; exact h2⟩
theorem staysL_iff (E : Env) : ∀ vs : List Val, mvalL E (dataL E vs) = vs ↔ StaysL E vs
  | [] => by simp [dataL, mvalL, StaysL]
  | v :: vs => by simp only [dataL, mvalL, StaysL, List.cons.injEq]; rw [stays_iff E v, staysL_iff E vs]
theorem staysM_iff (E : Env) : ∀ kvs : List (Bytes × Val), mvalM E (dataM E kvs) = kvs ↔ StaysM E kvs
  | [] => by simp [dataM, mvalM, StaysM]
  | (k, v) :: kvs => by simp only [dataM, mvalM, StaysM, List.cons.injEq, Prod.mk.injEq, true_and]; rw [stays_iff E v, staysM_iff E kvs]
end

/-- **C138**: of the values MessagePack can carry exactly those of `Stays` come back as they were. -/
theorem C138_iff (E : Env) (v : Val) (rest : Bytes) (h : Supported v) : newValueFromMsgPack E (value2MsgPack E v ++ rest) = .ok v ↔ Stays E v := by
  rw [C138_back E v rest h, ← stays_iff]
  exact ⟨Res.ok.inj, congrArg _⟩

/-! A map with a repeated name and a 16-bit form of 1: the name keeps its place and gets the second value. -/
def itemEx : MData := .map [([97], .int 1), ([98], .arr [.nil, .f64 0]), ([97], .str [120])]
def itemBytes : Bytes := [0x83, 0xa1, 97, 0xcd, 0, 1, 0xa1, 98, 0x92, 0xc0, 0xcb, 0, 0, 0, 0, 0, 0, 0, 0, 0xa1, 97, 0xa1, 120]
example : mval envEx itemEx = .obj true [([97], .str [120]), ([98], .arr [.null, .double 0])] := by decide +kernel
example : Fits itemEx ∧ Enc itemEx itemBytes := by
  refine ⟨⟨⟨by decide, by decide⟩, ⟨trivial, trivial, trivial⟩, trivial, trivial⟩, [0x83], _, .inl ⟨by decide, rfl⟩, ⟨[0xa1], [0xcd, 0, 1], _, .inl ⟨by decide, rfl⟩, ?_, ⟨[0xa1], [0x92, 0xc0, 0xcb, 0, 0, 0, 0, 0, 0, 0, 0], _, .inl ⟨by decide, rfl⟩, ⟨[0x92], _, .inl ⟨by decide, rfl⟩, ⟨_, _, rfl, ⟨_, _, rfl, rfl, rfl⟩, rfl⟩, rfl⟩, ⟨[0xa1], [0xa1, 120], _, .inl ⟨by decide, rfl⟩, ⟨[0xa1], .inl ⟨by decide, rfl⟩, rfl⟩, rfl, rfl⟩, rfl⟩, rfl⟩, rfl⟩
  exact .inr (.inr (.inr (.inl ⟨by decide, by decide, rfl⟩)))
example : newValueFromMsgPack envEx itemBytes = .ok (.obj true [([97], .str [120]), ([98], .arr [.null, .double 0])]) := by decide +kernel
example : Stays envEx (.obj true [([97], .arr [.int 0 5, .exbin 0 [7, 1, 2, 3]]), ([98], .obj false [])]) := by
  refine ⟨rfl, by simp [Assoc.Distinct]; decide, ⟨rfl, ⟨rfl, by simp⟩, trivial⟩, ⟨rfl, by simp [Assoc.Distinct], trivial⟩, trivial⟩
example : ¬ Stays envEx (.arr [.int 17 5]) := by simp [Stays, StaysL]

end Dxs.MsgPack
