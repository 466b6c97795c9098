import Verif.Tree.IntoFit
import Verif.Props.IntoTree
import Verif.Props.Outcome

/-!
# C130: exactly when loading into a value gives what the document decodes to

C10, C81 and C82 say that it does under some conditions on the value and the document. Here are the exact conditions: for every accepted
document and every value, `LoadFromX` succeeds, and the value is afterwards what `NewValueFromX` gives if and only if they fit together.
-/

namespace Dxs.Heap
open MsgPack (newValueFromMsgPack)
open Json (newValueFromJson)
open Bson (newValueFromBson)

section
variable {h : Heap} {p : Ptr} {v x : Val}

theorem EndsLike.done {w : Val} {y : Out Unit} (l : EndsLike p (.ok () w) y) : ∃ h' v' F', y = .ok () h' ∧ Rep h'.mem v' (some p) F' ∧ canon v' = canon w := by
  match y, l with
  | .ok _ h', ⟨v', F', hv, r⟩ => exact ⟨h', v', F', rfl, r, hv⟩

theorem Stands.ne_nil (s : Stands h p v) : v ≠ .nil := by
  obtain ⟨F, g⟩ := s.good
  exact rep_ne_nil g.rep

/-- C130 for MessagePack. -/
theorem C130_msgpack (E : Env) (s : Stands h p v) (b : Bytes) (ho : newValueFromMsgPack E b = .ok x) :
    ∃ h' v' F', loadMsgPackH E h p b = .ok () h' ∧ Rep h'.mem v' (some p) F' ∧ (canon v' = canon x ↔ TakesM E v x) := by
  obtain ⟨w, e, hw⟩ := loadMsgPackT_fits ho s.ne_nil
  obtain ⟨h', v', F', e', r, hv⟩ := (e ▸ C129_msgpack_tree E s b : EndsLike p (.ok () w) _).done
  exact ⟨h', v', F', e', r, hv ▸ hw⟩

/-- C130 for JSON. -/
theorem C130_json (E : Env) (s : Stands h p v) (b : Bytes) (ho : newValueFromJson E b = .ok x) :
    ∃ h' v' F', loadJsonH E h p b = .ok () h' ∧ Rep h'.mem v' (some p) F' ∧ (canon v' = canon x ↔ TakesJ v x) := by
  obtain ⟨w, e, hw⟩ := loadJsonT_fits ho s.ne_nil
  obtain ⟨h', v', F', e', r, hv⟩ := (e ▸ C129_json_tree E s b : EndsLike p (.ok () w) _).done
  exact ⟨h', v', F', e', r, hv ▸ hw⟩

/-! ### BSON -/

theorem stands_new {t : VT} {w : Val} (hg : ∃ F, Good (oneValue t) (some 5) w F) (ho : ((oneValue t).mem 5).owner = none) : Stands (oneValue t) 5 w :=
  ⟨oneValue_own _, by decide, hg, fun d hd => by rw [ho] at hd; cases hd⟩

theorem stands_array : Stands (oneValue .array) 5 (.arr []) := stands_new ⟨_, (newValue_spec (inv_init id) .array rfl).good⟩ rfl
theorem stands_object : Stands (oneValue .object) 5 (.obj false []) := stands_new ⟨_, (newValue_spec (inv_init id) .object rfl).good⟩ rfl

/-- `LoadFromBson` of a document that `NewValueFromBson` accepts: when it gives the same. -/
theorem loadBsonT_fits {E : Env} {hid b : Bytes} (ho : newValueFromBson E hid b = .ok x) (hv : v ≠ .nil) :
    ∃ w, loadBsonT E hid v b = .ok () w ∧ (canon w = canon x ↔ TakesM E v x) := by
  have hb : b ≠ [] := by
    rintro rfl
    cases ho
  -- into an empty object
  have hobj : ∃ w, loadBsonT E hid (.obj false []) b = .ok () w ∧ canon w = canon x := by
    have l := C129_bson_tree E hid stands_object b
    obtain ⟨F, g⟩ := stands_object.good
    obtain ⟨h', F', e, r⟩ := C82_load_partial E hid _ stands_object.own 5 (by decide) _ F g b x ho (Or.inl rfl)
    rw [e] at l
    match hx : loadBsonT E hid (.obj false []) b, l with
    | .ok _ w, ⟨v', F2, hc, r'⟩ =>
      obtain ⟨rfl, -⟩ := rep_det r r'
      exact ⟨w, rfl, hc.symm⟩
  unfold newValueFromBson at ho
  rw [Res.bind_eq_ok] at ho
  obtain ⟨⟨n, x'⟩, ho, ex⟩ := ho
  cases ex
  have hf : 2 * b.length + 2 = (2 * b.length + 1) + 1 := rfl
  have hf' : 2 * b.length + 1 = (2 * b.length) + 1 := rfl
  rw [hf, Bson.parseDoc] at ho
  split at ho
  · cases ho
  rename_i hl
  rw [Res.bind_eq_ok] at ho
  obtain ⟨n, hu, ho⟩ := ho
  split at ho
  · cases ho
  rename_i hl'
  rw [Res.bind_eq_ok] at ho
  obtain ⟨x', ho, e⟩ := ho
  cases e
  have go : ∀ v, loadBsonT E hid v b = (docLoopT E hid (2 * b.length + 1) (clearVal v) b n 4).bind fun _ v => .ok () v := by
    intro v
    unfold loadBsonT
    dsimp only
    rw [if_neg hb, hf, docT, if_neg hl, hu]
    simp only [Filled.lift, Filled.bind, if_neg hl']
    cases docLoopT E hid (2 * b.length + 1) (clearVal v) b n 4 <;> rfl
  have hc := clearVal_idem v
  rcases docLoop_first (hf' ▸ ho) with ⟨hn, rfl⟩ | ⟨hn, ty, k, y, kvs, ha, hk, rfl⟩
  · refine ⟨clearVal v, ?_, ?_⟩
    · rw [go, hf', docLoopT, if_neg hn]; rfl
    · simp only [TakesM, if_true]
      constructor
      · intro h
        cases v <;> simp [clearVal, canon] at h
        exact ⟨_, _, rfl⟩
      · rintro ⟨ku, ms, rfl⟩; rfl
  · obtain ⟨w0, e0, hw0⟩ := hobj
    rw [go] at e0
    by_cases hx : (∃ ys, v = .arr ys) → strIdx E ((b.drop (4 + 1)).take k) = -1
    · refine ⟨w0, ?_, iff_of_true hw0 (by simpa [TakesM, firstName] using hx)⟩
      rw [go]
      have hd : docLoopT E hid (2 * b.length + 1) (.obj false []) b n 4 = .ok () w0 := by
        have e0 : (docLoopT E hid (2 * b.length + 1) (.obj false []) b n 4).bind (fun _ v => .ok () v) = .ok () w0 := e0
        cases hd : docLoopT E hid (2 * b.length + 1) (.obj false []) b n 4 with
        | ok u w => rw [hd] at e0; exact e0
        | err _ _ => rw [hd] at e0; cases e0
        | panic => rw [hd] at e0; cases e0
        | loop => rw [hd] at e0; cases e0
      have hx' : (∃ ys, clearVal v = .arr ys) → strIdx E ((b.drop (4 + 1)).take k) = -1 := by
        rintro ⟨ys, e⟩
        cases v <;> simp [clearVal] at e
        exact hx ⟨_, rfl⟩
      rw [hf', docLoopT_fresh _ hc hn hk hx' _ _ (hf' ▸ hd)]
      rfl
    · have : ∃ ys, v = .arr ys := Classical.byContradiction fun h => hx fun h' => absurd h' h
      obtain ⟨ys, rfl⟩ := this
      have l := C129_bson_tree E hid stands_array b
      have hends := C121_bson_tree_partial E hid (oneValue .array) (stands_array.good.elim fun _ g => g.inv) 5 stands_array.lt b hb
      have hok : newValueFromBson E hid b = .ok (.obj true (((b.drop (4 + 1)).take k, y) :: kvs)) := by
        unfold newValueFromBson
        rw [hf, Bson.parseDoc, if_neg hl, hu]
        simp only [Res.bind_ok, if_neg hl', ho]
      rw [hok] at hends
      have ea : loadBsonT E hid (.arr ys) b = loadBsonT E hid (.arr []) b := rfl
      rw [ea]
      match hy : loadBsonH E hid (oneValue .array) 5 b, hends with
      | .ok _ h', _ =>
        rw [hy] at l
        match hz : loadBsonT E hid (.arr []) b, l with
        | .ok _ w, _ =>
          refine ⟨w, rfl, iff_of_false ?_ (by simpa [TakesM, firstName] using hx)⟩
          rw [go] at hz
          have hd : docLoopT E hid (2 * b.length + 1) (.arr []) b n 4 = .ok () w := by
            have hz : (docLoopT E hid (2 * b.length + 1) (.arr []) b n 4).bind (fun _ v => .ok () v) = .ok () w := hz
            cases hd : docLoopT E hid (2 * b.length + 1) (.arr []) b n 4 with
            | ok u w => rw [hd] at hz; exact hz
            | err _ _ => rw [hd] at hz; cases hz
            | panic => rw [hd] at hz; cases hz
            | loop => rw [hd] at hz; cases hz
          have hi : ¬ strIdx E ((b.drop (4 + 1)).take k) = -1 := fun h => hx fun _ => h
          rcases Mixed.docLoop _ _ _ _ _ _ (Or.inl ⟨_, rfl⟩) hd with ⟨xs, rfl⟩ | ⟨k0, y0, kvs0, rfl, h0⟩
          · simp [canon]
          · intro h
            simp only [canon, canonM, Val.obj.injEq, List.cons.injEq, Prod.mk.injEq] at h
            rw [h.2.1.1] at h0
            exact hi h0

/-- C130 for BSON. -/
theorem C130_bson (E : Env) (hid : Bytes) (s : Stands h p v) (b : Bytes) (ho : newValueFromBson E hid b = .ok x) :
    ∃ h' v' F', loadBsonH E hid h p b = .ok () h' ∧ Rep h'.mem v' (some p) F' ∧ (canon v' = canon x ↔ TakesM E v x) := by
  obtain ⟨w, e, hw⟩ := loadBsonT_fits ho s.ne_nil
  obtain ⟨h', v', F', e', r, hv⟩ := (e ▸ C129_bson_tree E hid s b : EndsLike p (.ok () w) _).done
  exact ⟨h', v', F', e', r, hv ▸ hw⟩

end

/-! ### Examples -/

/-- The map `{"a":1}` fits an array: `a` is no index. The map `{"0":1}` does not, and neither does the empty one. -/
example : TakesM envEx (.arr [.tru]) (.obj true [([97], .int 0 1)]) ∧ ¬ TakesM envEx (.arr []) (.obj true [([48], .int 0 1)]) ∧ ¬ TakesM envEx (.arr []) (.obj false []) := by
  have h1 : strIdx envEx [97] = -1 := by decide +kernel
  have h2 : strIdx envEx [48] ≠ -1 := by decide +kernel
  simp [TakesM, firstName, h1, h2]

/-- A string fits a string, but not an escaped string, and no number. -/
example : TakesM envEx (.str [120]) (.str [97]) ∧ ¬ TakesM envEx (.raw [120]) (.str [97]) ∧ ¬ TakesM envEx (.int 0 7) (.str [97]) := by simp [TakesM]

/-- `{"a":true}` loaded into an array. -/
example : loadBsonT envEx [] (.arr [.null]) [9, 0, 0, 0, 8, 97, 0, 1, 0] = .ok () (.obj true [([97], .tru)]) := by decide +kernel

/-- The hypotheses hold. -/
example : ∃ h' v' F', loadMsgPackH envEx (oneValue .array) 5 [0x81, 0xa1, 97, 1] = .ok () h' ∧ Rep h'.mem v' (some 5) F' ∧
    (canon v' = canon (.obj true [([97], .int 0 1)]) ↔ TakesM envEx (.arr []) (.obj true [([97], .int 0 1)])) :=
  C130_msgpack envEx stands_array _ (by decide +kernel)

end Dxs.Heap
