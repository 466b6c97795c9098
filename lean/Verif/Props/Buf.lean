import Verif.Buf.Bson
import Verif.Buf.Ops
import Verif.EnvEx

/-!
# C92-C97: what values share with the input of a parser and with the caller's slices
-/

namespace Dxs.Buf

/-- The result of a parser with references (in the memory `m`) against the result of the parser on trees: the same error, or a value for which `P` holds. -/
def Agree (x : Res LVal) (y : Res Val) (P : LVal → Val → Prop) : Prop :=
  match x, y with
  | .ok v, .ok t => P v t
  | .err e, .err e' => e = e'
  | .panic, .panic => True
  | .loop, .loop => True
  | _, _ => False

theorem agree_rr {x : Res LVal} {y : Res Val} {P : LVal → Val → Prop} (h : RR P x y) : Agree x y P := by
  cases x <;> cases y <;> exact h

/-- All three parsers: the right tree, references as they should be. -/
theorem msgPack_rr (E : Env) {m : Mem} {I : Input} (hm : Holds m I) (share : Bool) :
    RR (fun v t => v.read m = t ∧ v.All (Fits share I)) (newMsgPack E m share I) (MsgPack.newValueFromMsgPack E I.bytes) := by
  unfold newMsgPack MsgPack.newValueFromMsgPack MsgPack.parse
  refine RR.bind (mpValue_ok E hm share _ _ (List.suffix_refl _)) ?_
  rintro ⟨v, t⟩ ⟨_, _⟩ ⟨rfl, rfl, _, ha⟩
  exact ⟨rfl, ha⟩

theorem json_rr (E : Env) {m : Mem} {I : Input} (hm : Holds m I) (share : Bool) :
    RR (fun v t => v.read m = t ∧ v.All (Fits share I)) (newJson E share I) (Json.newValueFromJson E I.bytes) := by
  unfold newJson Json.newValueFromJson
  have hs := skip_suffix (List.suffix_refl I.bytes)
  generalize Json.skipWB I.bytes = q at hs ⊢
  obtain ⟨r, n⟩ := q
  refine RR.bind ((js_ok (E := E) (share := share) hm _).1 r hs) ?_
  rintro ⟨v, t⟩ ⟨_, _⟩ ⟨rfl, rfl, _, ha⟩
  dsimp only at ha ⊢
  split
  · rfl
  · exact ⟨rfl, ha⟩

theorem bson_rr (E : Env) {m : Mem} {I : Input} (hm : Holds m I) (share : Bool) :
    RR (fun v t => v.read m = t ∧ v.All (Fits share I)) (newBson E m share I) (Bson.newValueFromBson E I.hid I.bytes) := by
  unfold newBson Bson.newValueFromBson
  refine RR.bind ((bs_ok (E := E) (share := share) hm _).1 I.bytes false [] (List.suffix_refl _) trivial) ?_
  rintro ⟨n, v⟩ ⟨_, _⟩ ⟨rfl, rfl, ha⟩
  exact ⟨rfl, ha⟩

mutual
theorem read_congr {m m' : Mem} {P : Ref → Prop} (h : ∀ r, P r → r.read m = r.read m') : ∀ v : LVal, v.All P → v.read m = v.read m'
  | .obj ku kvs, ha => by
    simp only [LVal.read]
    rw [readM_congr h kvs (by simpa [LVal.All] using ha)]
  | .arr xs, ha => by
    simp only [LVal.read]
    rw [readL_congr h xs (by simpa [LVal.All] using ha)]
  | .str r, ha => by simp only [LVal.read]; rw [h r ha]
  | .raw r, ha => by simp only [LVal.read]; rw [h r ha]
  | .bin e r, ha => by simp only [LVal.read]; rw [h r ha]
  | .exbin e r, ha => by simp only [LVal.read]; rw [h r ha]
  | .lit v, _ => by simp only [LVal.read]
theorem readL_congr {m m' : Mem} {P : Ref → Prop} (h : ∀ r, P r → r.read m = r.read m') : ∀ xs : List LVal, AllL P xs → readL m xs = readL m' xs
  | [], _ => by simp only [readL]
  | x :: xs, ha => by
    simp only [AllL] at ha
    simp only [readL]
    rw [read_congr h x ha.1, readL_congr h xs ha.2]
theorem readM_congr {m m' : Mem} {P : Ref → Prop} (h : ∀ r, P r → r.read m = r.read m') : ∀ xs : List (Ref × LVal), AllM P xs → readM m xs = readM m' xs
  | [], _ => by simp only [readM]
  | (k, x) :: xs, ha => by
    simp only [AllM] at ha
    simp only [readM]
    rw [h k ha.1, read_congr h x ha.2.1, readM_congr h xs ha.2.2]
end

theorem own_read {I : Input} (m m' : Mem) (r : Ref) (h : Fits false I r) : r.read m = r.read m' := by
  cases r with
  | own b => rfl
  | sl s => exact absurd h.1 (by decide)

theorem same_read {share : Bool} {I : Input} {m m' : Mem} (he : m' I.id = m I.id) (r : Ref) (h : Fits share I r) : r.read m = r.read m' := by
  cases r with
  | own b => rfl
  | sl s => simp only [Ref.read, Slice.read]; rw [h.2.1, he]

/-! ## C92: without `sharebinary` nothing is shared -/

/-- C92, MessagePack. The memory after the parse may be any memory. -/
theorem C92_msgpack (E : Env) (m : Mem) (I : Input) (hm : m I.id = I.bytes ++ I.hid) :
    Agree (newMsgPack E m false I) (MsgPack.newValueFromMsgPack E I.bytes) (fun v t => ∀ m' : Mem, v.read m' = t) :=
  agree_rr ((msgPack_rr E hm false).mono fun v _ h m' => (read_congr (fun r hr => own_read m' m r hr) v h.2).trans h.1)

/-- C92, JSON. -/
theorem C92_json (E : Env) (m : Mem) (I : Input) (hm : m I.id = I.bytes ++ I.hid) :
    Agree (newJson E false I) (Json.newValueFromJson E I.bytes) (fun v t => ∀ m' : Mem, v.read m' = t) :=
  agree_rr ((json_rr E hm false).mono fun v _ h m' => (read_congr (fun r hr => own_read m' m r hr) v h.2).trans h.1)

/-- C92, BSON. -/
theorem C92_bson (E : Env) (m : Mem) (I : Input) (hm : m I.id = I.bytes ++ I.hid) :
    Agree (newBson E m false I) (Bson.newValueFromBson E I.hid I.bytes) (fun v t => ∀ m' : Mem, v.read m' = t) :=
  agree_rr ((bson_rr E hm false).mono fun v _ h m' => (read_congr (fun r hr => own_read m' m r hr) v h.2).trans h.1)

/-! ## C93: with `sharebinary` the value is the same as long as the input is left alone -/

/-- The value lies in the input: every string, key and binary is a window into it (or has its own bytes). -/
def Inside (I : Input) : Ref → Prop
  | .own _ => True
  | .sl s => s.arr = I.id ∧ s.len ≤ s.cap ∧ s.off + s.cap = I.bytes.length + I.hid.length

theorem inside (I : Input) (share : Bool) (r : Ref) (h : Fits share I r) : Inside I r := by
  cases r with
  | own b => trivial
  | sl s => exact h.2

mutual
theorem all_imp {P Q : Ref → Prop} (h : ∀ r, P r → Q r) : ∀ v : LVal, v.All P → v.All Q
  | .obj ku kvs, ha => by simp only [LVal.All] at ha ⊢; exact allM_imp h kvs ha
  | .arr xs, ha => by simp only [LVal.All] at ha ⊢; exact allL_imp h xs ha
  | .str r, ha => h r ha
  | .raw r, ha => h r ha
  | .bin e r, ha => h r ha
  | .exbin e r, ha => h r ha
  | .lit v, ha => ha
theorem allL_imp {P Q : Ref → Prop} (h : ∀ r, P r → Q r) : ∀ xs : List LVal, AllL P xs → AllL Q xs
  | [], _ => trivial
  | x :: xs, ha => by simp only [AllL] at ha ⊢; exact ⟨all_imp h x ha.1, allL_imp h xs ha.2⟩
theorem allM_imp {P Q : Ref → Prop} (h : ∀ r, P r → Q r) : ∀ xs : List (Ref × LVal), AllM P xs → AllM Q xs
  | [], _ => trivial
  | (k, x) :: xs, ha => by simp only [AllM] at ha ⊢; exact ⟨h k ha.1, all_imp h x ha.2.1, allM_imp h xs ha.2.2⟩
end

theorem shared {E : Env} {m : Mem} {I : Input} {x : Res LVal} {y : Res Val} (h : RR (fun v t => v.read m = t ∧ v.All (Fits true I)) x y) :
    Agree x y (fun v t => v.All (Inside I) ∧ ∀ m' : Mem, m' I.id = m I.id → v.read m' = t) :=
  agree_rr (h.mono fun v _ h => ⟨all_imp (inside I true) v h.2, fun _ he => ((read_congr (fun r hr => same_read he r hr) v h.2).symm).trans h.1⟩)

/-- C93, MessagePack. -/
theorem C93_msgpack (E : Env) (m : Mem) (I : Input) (hm : m I.id = I.bytes ++ I.hid) :
    Agree (newMsgPack E m true I) (MsgPack.newValueFromMsgPack E I.bytes) (fun v t => v.All (Inside I) ∧ ∀ m' : Mem, m' I.id = m I.id → v.read m' = t) :=
  shared (E := E) (msgPack_rr E hm true)

/-- C93, JSON. -/
theorem C93_json (E : Env) (m : Mem) (I : Input) (hm : m I.id = I.bytes ++ I.hid) :
    Agree (newJson E true I) (Json.newValueFromJson E I.bytes) (fun v t => v.All (Inside I) ∧ ∀ m' : Mem, m' I.id = m I.id → v.read m' = t) :=
  shared (E := E) (json_rr E hm true)

/-- C93, BSON. -/
theorem C93_bson (E : Env) (m : Mem) (I : Input) (hm : m I.id = I.bytes ++ I.hid) :
    Agree (newBson E m true I) (Bson.newValueFromBson E I.hid I.bytes) (fun v t => v.All (Inside I) ∧ ∀ m' : Mem, m' I.id = m I.id → v.read m' = t) :=
  shared (E := E) (bson_rr E hm true)

/-- `{"a": bin 01, "b": bin 02}` in MessagePack. -/
def doc : Bytes := [0x82, 0xa1, 97, 0xc4, 1, 1, 0xa1, 98, 0xc4, 1, 2]

/-- The document is array 0. -/
def docIn : Input := ⟨0, doc, []⟩

/-- The bytes of the two members. -/
def members : LVal → List Ref
  | .obj _ [(_, .bin _ a), (_, .bin _ b)] => [a, b]
  | _ => []

/-- C92, C93: with `sharebinary` the two binaries are windows into the document, without they have their own bytes. -/
example : (newMsgPack envEx (mem [doc]) true docIn).bind (fun v => .ok (members v)) = .ok [.sl ⟨0, 5, 1, 6⟩, .sl ⟨0, 10, 1, 1⟩] ∧
    (newMsgPack envEx (mem [doc]) false docIn).bind (fun v => .ok (members v)) = .ok [.own [1], .own [2]] := by decide +kernel

/-- With `sharebinary` a write to the document is seen in the value. -/
example : (Slice.read (mem [doc.set 5 9]) ⟨0, 5, 1, 6⟩) = [9] := by decide +kernel

/-! ## C94: binary values are independent of each other and of the caller's slices -/

/-- C94, for programs that call `SetBinary` with `valueClone` only and start with values that have their own bytes (new ones, or from a parser without
`sharebinary`): each value and each slice of the caller has its own bytes all the time. -/
theorem C94_partial (g : Nat → Nat → Nat) (ops : List Op) (h : ∀ op ∈ ops, ∀ i j clone, op = .setBinary i j clone → clone = true) :
    (run g ⟨[], []⟩ ops).view = runV [] ops := by
  have S : Apart ⟨[], []⟩ := ⟨by intro c hc; simp at hc, by intro i j c d _ hc; simp at hc⟩
  refine (run_view g ops S fun op ho => ?_).2
  cases op with
  | setBinary i j clone => exact h _ ho i j clone rfl
  | _ => trivial

example (g : Nat → Nat → Nat) : (run g ⟨[], []⟩ [.new .exbin [5, 1, 2], .new .buf [7, 8, 9, 10], .setBinary 0 1 true, .poke 1 0 0, .setExtType 0 6]).view =
    [(.exbin, [6, 7, 8, 9, 10]), (.buf, [0, 8, 9, 10])] := by
  rw [C94_partial g _ (by intro op ho i j c e; subst e; simp at ho; exact ho.2.2)]
  decide +kernel

/-- C94 fails after `SetBinary(b, false)`: the next `SetBinary` with `valueClone` writes into the caller's `b`. -/
theorem C94_caller_counterexample (g : Nat → Nat → Nat) : ∃ ops,
    (run g ⟨[], []⟩ ops).view = [(.bin, [9]), (.buf, [9, 2, 3]), (.buf, [9])] ∧ runV [] ops = [(.bin, [9]), (.buf, [1, 2, 3]), (.buf, [9])] :=
  ⟨[.new .bin [], .new .buf [1, 2, 3], .new .buf [9], .setBinary 0 1 false, .setBinary 0 2 true], by simp [run, step, setBinary, append, Cell.binary, World.view, Cell.view, Slice.read, mem, put], by decide +kernel⟩

/-- C94 fails between the members of a document parsed with `sharebinary`: `SetBinary(…, true)` on the first writes over the second. -/
theorem C94_shared_counterexample (g : Nat → Nat → Nat) : ∃ a b,
    (newMsgPack envEx (mem [doc]) true docIn).bind (fun v => .ok (members v)) = .ok [.sl a, .sl b] ∧ b.read (mem [doc]) = [2] ∧
    ((run g ⟨[doc, [7, 7, 7, 7, 7, 7]], [⟨.bin, a⟩, ⟨.bin, b⟩, ⟨.buf, ⟨1, 0, 6, 6⟩⟩]⟩ [.setBinary 0 2 true]).view)[1]? = some (.bin, [7]) :=
  ⟨⟨0, 5, 1, 6⟩, ⟨0, 10, 1, 1⟩, by decide +kernel, by decide +kernel,
    by simp [run, step, setBinary, append, Cell.binary, World.view, Cell.view, Slice.read, mem, put, doc]⟩

/-- C94 fails for `SetExtType`: on an extension value parsed with `sharebinary` it writes into the document (`c7 01 05 aa` becomes `c7 01 06 aa`). -/
theorem C94_extType_counterexample (g : Nat → Nat → Nat) : ∃ a,
    (newMsgPack envEx (mem [[0xc7, 1, 5, 0xaa]]) true ⟨0, [0xc7, 1, 5, 0xaa], []⟩).bind (fun v => .ok (match v with | .exbin _ r => some r | _ => none)) = .ok (some (.sl a)) ∧
    (run g ⟨[[0xc7, 1, 5, 0xaa]], [⟨.exbin, a⟩, ⟨.buf, ⟨0, 0, 4, 4⟩⟩]⟩ [.setExtType 0 6]).view = [(.exbin, [6, 0xaa]), (.buf, [0xc7, 1, 6, 0xaa])] :=
  ⟨⟨0, 2, 2, 2⟩, by decide +kernel, by simp [run, step, setExtType, World.view, Cell.view, Slice.read, mem, put]⟩

/-! ## C95: `SetBinary` with `valueClone` makes a private copy -/

/-- C95, if the value does not already use the array of the source: later writes to the source are not seen. -/
theorem C95_partial (g : Nat → Nat → Nat) (arrs : List Bytes) (c : Cell) (src : Slice) (k : Nat) (x : UInt8) (hc : WF arrs c.sl) (hs : WF arrs src)
    (hne : c.sl.arr ≠ src.arr) :
    (setBinary g arrs c src true).1.view (poke (setBinary g arrs c src true).2 ⟨.buf, src⟩ k x) = (setBinary g arrs c src true).1.view (setBinary g arrs c src true).2 := by
  have hl := setBinary_local g hc src
  generalize setBinary g arrs c src true = q at hl ⊢
  obtain ⟨c', arrs'⟩ := q
  dsimp only at hl ⊢
  unfold poke
  split
  · rename_i hk
    have hcap : 0 < src.cap := by have := hs.1; have := hk.2; dsimp only at this; omega
    have hlt := wf_lt hs hcap
    have hlt' : src.arr < arrs'.length := Nat.lt_of_lt_of_le hlt hl.len
    unfold Cell.view Slice.read
    congr 1
    rw [mem_modify_lt arrs' hlt']
    split
    · rename_i e
      rcases hl.own with ⟨e1, _⟩ | e1 | e1
      · exact absurd (e1.symm.trans e.symm) hne
      · omega
      · have := hl.wf.1
        have h0 : c'.sl.len = 0 := by omega
        rw [h0]; simp
    · rfl
  · rfl

example (g : Nat → Nat → Nat) : (setBinary g [[1], [2]] ⟨.bin, ⟨0, 0, 1, 1⟩⟩ ⟨1, 0, 1, 1⟩ true).1.view (poke (setBinary g [[1], [2]] ⟨.bin, ⟨0, 0, 1, 1⟩⟩ ⟨1, 0, 1, 1⟩ true).2
    ⟨.buf, ⟨1, 0, 1, 1⟩⟩ 0 9) = (.bin, [2]) := by
  simp [setBinary, append, poke, Cell.view, Slice.read, mem, put]

/-- C95 fails if the value already uses the slice: `SetBinary(b, false)`, `SetBinary(b, true)`, `b[0] = 9` changes the value. -/
theorem C95_counterexample (g : Nat → Nat → Nat) : ∃ ops,
    (run g ⟨[], []⟩ (ops ++ [.setBinary 0 1 true])).view = [(.bin, [1, 2]), (.buf, [1, 2])] ∧
    (run g ⟨[], []⟩ (ops ++ [.setBinary 0 1 true, .poke 1 0 9])).view = [(.bin, [9, 2]), (.buf, [9, 2])] :=
  ⟨[.new .bin [], .new .buf [1, 2], .setBinary 0 1 false], by simp [run, step, setBinary, append, Cell.binary, World.view, Cell.view, Slice.read, mem, put],
    by simp [run, step, setBinary, append, poke, Cell.binary, World.view, Cell.view, Slice.read, mem, put]⟩

/-! ## C96: `Binary` returns what `SetBinary` was given -/

/-- C96. Whatever the value was, whatever shares memory with whatever: after `SetBinary` on a binary value `Binary` returns the bytes that were given. -/
theorem C96_binary (g : Nat → Nat → Nat) (arrs : List Bytes) (c : Cell) (src : Slice) (clone : Bool) (hc : WF arrs c.sl) (hs : WF arrs src) (hk : c.kind ≠ .buf) :
    (setBinary g arrs c src clone).1.binary.read (mem (setBinary g arrs c src clone).2) = src.read (mem arrs) := by
  have hw : WF (setBinary g arrs c src clone).2 (setBinary g arrs c src clone).1.sl := by
    cases clone with
    | true => exact (setBinary_local g hc src).wf
    | false =>
      obtain ⟨k, s⟩ := c
      cases k with
      | buf => exact absurd rfl hk
      | bin => exact hs
      | exbin =>
        have := (setBinary_local g hc src).wf
        simp only [setBinary] at this ⊢
        split
        · rename_i hp; rw [if_pos hp] at this; exact this
        · exact hs
  rw [binary_read hw, setBinary_view g hc]
  obtain ⟨k, s⟩ := c
  cases k with
  | buf => exact absurd rfl hk
  | bin => rfl
  | exbin => simp only [Cell.view]; cases s.read (mem arrs) <;> rfl

/-- The source may be a part of the value itself: `v.SetBinary(v.Binary()[1:2], true)`. -/
example (g : Nat → Nat → Nat) : (setBinary g [[5, 1, 2, 3]] ⟨.exbin, ⟨0, 0, 4, 4⟩⟩ ⟨0, 2, 2, 2⟩ true).1.view (setBinary g [[5, 1, 2, 3]] ⟨.exbin, ⟨0, 0, 4, 4⟩⟩ ⟨0, 2, 2, 2⟩ true).2 =
    (.exbin, [5, 2, 3]) := by
  simp [setBinary, append, Cell.view, Slice.read, mem, put]

/-! ## C97: `SetBinary` keeps the kind of value -/

/-- C97, unless the value is an extension value without content. -/
theorem C97_partial (g : Nat → Nat → Nat) (arrs : List Bytes) (c : Cell) (src : Slice) (clone : Bool) (h : c.kind = .exbin → 0 < c.sl.len) :
    (setBinary g arrs c src clone).1.kind = c.kind := by
  obtain ⟨k, s⟩ := c
  cases k with
  | buf => rfl
  | bin => cases clone <;> rfl
  | exbin => simp only [setBinary]; rw [if_pos (h rfl)]

/-- C97 fails for a new extension value: `SetBinary` makes it a plain binary, and the `SetExtType` that follows does nothing. -/
theorem C97_counterexample (g : Nat → Nat → Nat) :
    (run g ⟨[], []⟩ [.new .exbin [], .new .buf [1], .setBinary 0 1 true, .setExtType 0 5]).view = [(.bin, [1]), (.buf, [1])] ∧
    (run g ⟨[], []⟩ [.new .exbin [], .new .buf [1], .setExtType 0 5, .setBinary 0 1 true]).view = [(.exbin, [5, 1]), (.buf, [1])] := by
  rw [C94_partial g _ (by intro op ho i j c e; subst e; simp at ho; exact ho.2.2), C94_partial g _ (by intro op ho i j c e; subst e; simp at ho; exact ho.2.2)]
  decide +kernel

end Dxs.Buf
