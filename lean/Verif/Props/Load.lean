import Verif.Load.Root
import Verif.Load.IntoJson
import Verif.EnvEx
import Verif.Heap.Example
import Verif.Props.MsgPack
import Verif.Props.Json

/-!
# C10, C11, C81: the loaders in memory
-/

namespace Dxs.Heap
open MsgPack (newValueFromMsgPack value2MsgPack)
open Json (newValueFromJson value2Json Style)

/-! ## C11: with and without the cache -/

/-- Two calls have the same outcome: the same error, or values that are the same tree, up to the upper halves of the cells of type
Float. -/
def SameLoad : Out (Option Ptr) → Out (Option Ptr) → Prop
  | .ok a h, .ok b k => ∃ v F w G, Rep h.mem v a F ∧ Rep k.mem w b G ∧ canon v = canon w
  | .err e _, .err e' _ => e = e'
  | .panic, .panic => True
  | _, _ => False

theorem Loads.same {h k : Heap} {x : Res Val} {y z : Out (Option Ptr)} (hx : x ≠ .loop) (l : Loads h x y) (m : Loads k x z) : SameLoad y z := by
  match x, y, z, l, m with
  | .ok _, .ok _ _, .ok _ _, ⟨v, F, hv, mv⟩, ⟨w, G, hw, mw⟩ => exact ⟨v, F, w, G, mv.good.rep, mw.good.rep, hv.trans hw.symm⟩
  | .err _, .err _ _, .err _ _, ⟨e, _⟩, ⟨e', _⟩ => exact e.trans e'.symm
  | .panic, .panic, .panic, _, _ => trivial
  | .loop, .loop, .loop, _, _ => exact absurd rfl hx

theorem newMsgPack_ends (E : Env) (b : Bytes) : newValueFromMsgPack E b ≠ .loop := by
  intro h
  unfold newValueFromMsgPack at h
  rw [Res.bind_eq_loop] at h
  rcases h with h | ⟨_, -, h⟩
  · exact (MsgPack.C07_prefix_and_termination E b).1 h
  · cases h

theorem newJson_ends (E : Env) (b : Bytes) : newValueFromJson E b ≠ .loop := by
  rcases Json.C21_total E b with ⟨v, h⟩ | ⟨e, h⟩ <;> rw [h] <;> simp

/-- C11 for MessagePack, for all documents, all memories (whatever was created and freed before), any cache from the pool. Missing: the
upper halves of Float cells, see `C11_recycled_counterexample`. -/
theorem C11_msgpack_partial (E : Env) (h k : Heap) (I : Inv h) (J : Inv k) (b : Bytes) (u u' : Bool) (pick pick' : Option Nat) :
    SameLoad (newValueFromMsgPackH E h b u pick) (newValueFromMsgPackH E k b u' pick') :=
  Loads.same (newMsgPack_ends E b) (newValueFromMsgPackH_spec E I b u pick) (newValueFromMsgPackH_spec E J b u' pick')

/-- C11 for JSON. -/
theorem C11_json_partial (E : Env) (h k : Heap) (I : Inv h) (J : Inv k) (b : Bytes) (u u' : Bool) (pick pick' : Option Nat) :
    SameLoad (newValueFromJsonH E h b u pick) (newValueFromJsonH E k b u' pick') :=
  Loads.same (newJson_ends E b) (newValueFromJsonH_spec E I b u pick) (newValueFromJsonH_spec E J b u' pick')

/-- Two values that are the same up to the unused halves have the same MessagePack and JSON texts, and are the same if there is no
Float in them. -/
theorem C11_texts (E : Env) (v w : Val) (h : canon v = canon w) :
    value2MsgPack E v = value2MsgPack E w ∧ (∀ st d, value2Json E st d v = value2Json E st d w) ∧ (noFloat v = true → v = w) := by
  refine ⟨?_, ?_, ?_⟩
  · unfold value2MsgPack; rw [← enc_canon, h, enc_canon]
  · intro st d; unfold value2Json; rw [← toJson_canon, h, toJson_canon]
  · intro hv
    have hw : noFloat (canon w) = true := by rw [← h, canon_noFloat]; exact hv
    rw [← canon_same v hv, h, canon_same w (by rw [← canon_noFloat]; exact hw)]

/-- The memory after a call, and the outcome with what a reader sees in it. -/
def Out.see {α β : Type} (x : Out α) (f : α → Heap → β) : Option (Option β) :=
  match x with
  | .ok a h => some (some (f a h))
  | .err _ _ => some none
  | _ => none

/-- A program that has loaded the double -1 with a cache and freed it. -/
def usedHeap : Heap :=
  match newValueFromMsgPackH envEx (Heap.init id) [0xcb, 0xbf, 0xf0, 0, 0, 0, 0, 0, 0] true none with
  | .ok a h => freeValue h a
  | _ => Heap.init id

theorem usedHeap_inv : Inv usedHeap := by
  unfold usedHeap
  have l := newValueFromMsgPackH_spec envEx (inv_init id) [0xcb, 0xbf, 0xf0, 0, 0, 0, 0, 0, 0] true none
  split
  · rename_i a h e
    rw [e] at l
    match newValueFromMsgPack envEx [0xcb, 0xbf, 0xf0, 0, 0, 0, 0, 0, 0], l with
    | .ok _, ⟨_, _, _, m⟩ => exact m.good.inv.freeValue _
  · exact inv_init id

/-- The float 1 loaded into a recycled node: `Bool` reads all eight bytes of the cell and answers false with the cache, true without. -/
theorem C11_recycled_counterexample :
    (newValueFromMsgPackH envEx usedHeap [0xca, 0x3f, 0x80, 0, 0] true (some 0)).see (fun a h => getBool envEx (h.mem (a.getD 0))) = some (some false) ∧
    (newValueFromMsgPackH envEx usedHeap [0xca, 0x3f, 0x80, 0, 0] false none).see (fun a h => getBool envEx (h.mem (a.getD 0))) = some (some true) := by
  decide

/-- The same with JSON: numbers with a point are of type Float. -/
theorem C11_json_recycled_counterexample :
    (newValueFromJsonH envEx usedHeap [91, 49, 46, 53, 93] false none).see (fun a h => (h.mem (a.getD 0)).arr.map (fun q => (h.mem (q.getD 0)).cell)) = some (some [0]) ∧
    (newValueFromMsgPackH envEx usedHeap [0xcb, 0xbf, 0xf0, 0, 0, 0, 0, 0, 0] true (some 0)).see (fun a h =>
      (newValueFromJsonH envEx (freeValue h a) [49, 46, 53, 32] true (some 0)).see (fun a h => (h.mem (a.getD 0)).cell)) =
        some (some (some (some 0xbff0000000000000))) := by
  decide

/-- The hypotheses of C11 hold for that memory; the document is an object with an array and two strings. -/
example : SameLoad (newValueFromMsgPackH envEx usedHeap [0x82, 0xa1, 97, 0x92, 1, 0xc3, 0xa1, 98, 0xa1, 99] true (some 0))
    (newValueFromMsgPackH envEx (Heap.init id) [0x82, 0xa1, 97, 0x92, 1, 0xc3, 0xa1, 98, 0xa1, 99] false none) :=
  C11_msgpack_partial _ _ _ usedHeap_inv (inv_init id) _ _ _ _ _
example : (newValueFromMsgPackH envEx usedHeap [0x82, 0xa1, 97, 0x92, 1, 0xc3, 0xa1, 98, 0xa1, 99] true (some 0)).see
    (fun a h => (h.mem (a.getD 0)).kvs) = some (some [([97], some 6), ([98], some 8)]) := by decide

/-! ## C10: `LoadFromMsgPack` -/

/-- C10 for the documents and values that fit together (`Takes`). Missing: strings, binaries and extensions, times, empty arrays and
maps; maps loaded into an array value, doubles into a DateTime value, integers into an integer with a BSON type. -/
theorem C10_load_partial (E : Env) (h : Heap) (O : Own h) (p : Ptr) (h5 : 5 ≤ p) (w : Val) (F : List Ptr) (g : Good h (some p) w F) (b : Bytes) (v : Val)
    (ho : newValueFromMsgPack E b = .ok v) (ht : Takes w v) :
    ∃ h' v' F', loadMsgPackH E h p b = .ok () h' ∧ Rep h'.mem v' (some p) F' ∧ canon v' = v := by
  obtain ⟨h', v', F', e, hv, g'⟩ := loadMsgPackH_spec E O h5 g ho ht
  exact ⟨h', v', F', e, g'.rep, hv⟩

/-- A new value of type `t`: address 5 in an empty memory. -/
def oneValue (t : VT) : Heap := (newValue (Heap.init id) t).2

/-- A string is stored without its type: an Int value stays an Int value. -/
theorem C10_string_counterexample :
    (loadMsgPackH envEx (oneValue .int) 5 [0xa1, 97]).see (fun _ h => ((h.mem 5).dt, (h.mem 5).str)) = some (some (.int, [97])) ∧
    newValueFromMsgPack envEx [0xa1, 97] = .ok (.str [97]) := by decide

/-- So are binaries and extensions. -/
theorem C10_binary_counterexample :
    (loadMsgPackH envEx (oneValue .string) 5 [0xc4, 1, 97]).see (fun _ h => ((h.mem 5).dt, (h.mem 5).str)) = some (some (.string, [])) ∧
    newValueFromMsgPack envEx [0xc4, 1, 97] = .ok (.bin 0 [97]) ∧
    (loadMsgPackH envEx (oneValue .binary) 5 [0xd4, 7, 97]).see (fun _ h => ((h.mem 5).dt, (h.mem 5).bin)) = some (some (.binary, [7, 97])) ∧
    newValueFromMsgPack envEx [0xd4, 7, 97] = .ok (.exbin 0 [7, 97]) := by decide

/-- Empty containers do not change the type. -/
theorem C10_empty_counterexample :
    (loadMsgPackH envEx (oneValue .int) 5 [0x80]).see (fun _ h => (h.mem 5).dt) = some (some .int) ∧
    (loadMsgPackH envEx (oneValue .object) 5 [0x90]).see (fun _ h => (h.mem 5).dt) = some (some .object) ∧
    newValueFromMsgPack envEx [0x80] = .ok (.obj false []) ∧ newValueFromMsgPack envEx [0x90] = .ok (.arr []) := by decide

/-- A map with the key "0" loaded into an array value gives an array. -/
theorem C10_array_counterexample :
    (loadMsgPackH envEx (oneValue .array) 5 [0x81, 0xa1, 48, 7]).see (fun _ h => ((h.mem 5).dt, (h.mem 5).arr.length)) = some (some (.array, 1)) ∧
    newValueFromMsgPack envEx [0x81, 0xa1, 48, 7] = .ok (.obj true [([48], .int 0 7)]) := by decide

/-- A time becomes a Double, and a double loaded into a DateTime value a time. -/
theorem C10_time_counterexample :
    (loadMsgPackH envEx (oneValue .int) 5 [0xd6, 0xff, 0, 0, 0, 1]).see (fun _ h => (h.mem 5).dt) = some (some .double) ∧
    (newValueFromMsgPack envEx [0xd6, 0xff, 0, 0, 0, 1]).bind (fun v => .ok v.vt) = .ok .dateTime ∧
    (loadMsgPackH envEx (oneValue .dateTime) 5 [0xcb, 0, 0, 0, 0, 0, 0, 0, 1]).see (fun _ h => (h.mem 5).dt) = some (some .dateTime) ∧
    newValueFromMsgPack envEx [0xcb, 0, 0, 0, 0, 0, 0, 0, 1] = .ok (.double 1) := by decide

/-- The BSON type of an integer stays. -/
theorem C10_ext_counterexample :
    (loadMsgPackH envEx ((oneValue .int).upd 5 (fun n => { n with ext := 0x11 })) 5 [7]).see (fun _ h => leafOf (h.mem 5)) = some (some (some (.int 0x11 7))) ∧
    newValueFromMsgPack envEx [7] = .ok (.int 0 7) := by decide

theorem own_init (grow : Nat → Nat) : Own (Heap.init grow) where
  fresh q hq := by
    unfold Heap.init at hq ⊢
    simp only
    repeat' split
    all_goals first | rfl | omega
  slot c hc := absurd hc (by simp [Heap.init])
  tail c hc := absurd hc (by simp [Heap.init])
  root c hc := absurd hc (by simp [Heap.init])

theorem oneValue_own (t : VT) : Own (oneValue t) := (newValue_step (X := fun _ => True) (inv_init id) t).own (own_init id)

/-- The hypotheses hold: `{"a":[1,true]}` is loaded into a value that was the integer 0. -/
example : ∃ h' v' F', loadMsgPackH envEx (oneValue .int) 5 [0x81, 0xa1, 97, 0x92, 1, 0xc3] = .ok () h' ∧ Rep h'.mem v' (some 5) F' ∧
    canon v' = .obj true [([97], .arr [.int 0 1, .tru])] := by
  have A := newValue_spec (inv_init id) .int rfl
  refine C10_load_partial envEx _ (oneValue_own _) 5 (by decide) (.int 0 0) [5] ?_ _ _ (by decide) (by simp [Takes, Val.vt])
  exact A.good

/-! ## C81: `LoadFromJson` -/

/-- C81 for the documents and values that fit together (`TakesJ`). Missing: numbers with a point, numbers at the end of the text,
objects (arrays) loaded into a value of another type, and rejecting what follows the document. -/
theorem C81_load_partial (E : Env) (h : Heap) (O : Own h) (p : Ptr) (h5 : 5 ≤ p) (w : Val) (F : List Ptr) (g : Good h (some p) w F) (b : Bytes) (v : Val)
    (ho : newValueFromJson E b = .ok v) (ht : TakesJ w v) :
    ∃ h' v' F', loadJsonH E h p b = .ok () h' ∧ Rep h'.mem v' (some p) F' ∧ canon v' = v := by
  obtain ⟨h', v', F', e, hv, g'⟩ := loadJsonH_spec E O h5 g ho ht
  exact ⟨h', v', F', e, g'.rep, hv⟩

/-- `{"a":1}` loaded into an Int value: it stays the integer it was. -/
theorem C81_type_counterexample :
    (loadJsonH envEx (oneValue .int) 5 [123, 34, 97, 34, 58, 49, 125]).see (fun _ h => leafOf (h.mem 5)) = some (some (some (.int 0 0))) ∧
    newValueFromJson envEx [123, 34, 97, 34, 58, 49, 125] = .ok (.obj false [([97], .int 0 1)]) := by decide

/-- `1.5 ` is loaded as an Int. -/
theorem C81_float_counterexample :
    (loadJsonH envEx (oneValue .string) 5 [49, 46, 53, 32]).see (fun _ h => (h.mem 5).dt) = some (some .int) ∧
    (newValueFromJson envEx [49, 46, 53, 32]).bind (fun v => .ok v.vt) = .ok .float := by decide

/-- A number at the end of the text is not loaded at all. -/
theorem C81_end_counterexample :
    (loadJsonH envEx (oneValue .string) 5 [49, 50]).see (fun _ h => (h.mem 5).dt) = some (some .string) ∧
    newValueFromJson envEx [49, 50] = .ok .nil := by decide

/-- `{}x` is accepted. -/
theorem C81_tail_counterexample :
    (loadJsonH envEx (oneValue .object) 5 [123, 125, 120]).see (fun _ h => (h.mem 5).dt) = some (some .object) ∧
    (∃ e, newValueFromJson envEx [123, 125, 120] = .err e) := ⟨by decide, _, rfl⟩

/-- The hypotheses hold: `{"a":[1,"x"]}` is loaded into an empty object. -/
example : ∃ h' v' F', loadJsonH envEx (oneValue .object) 5 [123, 34, 97, 34, 58, 91, 49, 44, 34, 120, 34, 93, 125] = .ok () h' ∧ Rep h'.mem v' (some 5) F' ∧
    canon v' = .obj false [([97], .arr [.int 0 1, .raw [120]])] := by
  have A := newValue_spec (inv_init id) .object rfl
  refine C81_load_partial envEx _ (oneValue_own _) 5 (by decide) (.obj false []) [5] ?_ _ _ (by decide) (by simp [TakesJ, Val.vt])
  exact A.good

end Dxs.Heap
