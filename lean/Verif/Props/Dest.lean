import Verif.Reflect.Std
import Verif.Props.Read

/-!
# C98, C99: ToStdValue with other destinations
-/

namespace Dxs.Reflect
open Dxs.Heap

variable {E : Env}

theorem valString_text {v : Val} (h : v ≠ .nil) : valString E v = textOf E v := by
  cases v <;> first | rfl | exact binShow_eq E _ _ | exact absurd rfl h

/-! ## C98: `map[string]string` -/

/-- The texts of the members. -/
def Texts (E : Env) : List (Bytes × Val) → List (Bytes × Bytes) → Prop
  | [], [] => True
  | (k, v) :: kvs, (k', t) :: ts => k = k' ∧ v ≠ .nil ∧ textOf E v = .ok t ∧ Texts E kvs ts
  | _, _ => False

theorem strMap_texts : ∀ (kvs : List (Bytes × Val)) (ts dst : List (Bytes × Bytes)), Texts E kvs ts → (kvs.map Prod.fst).Nodup →
    (∀ k ∈ kvs.map Prod.fst, k ∉ dst.map Prod.fst) → strMap E dst kvs = .ok (dst ++ ts)
  | [], [], dst, _, _, _ => by simp [strMap]
  | [], _ :: _, _, h, _, _ => h.elim
  | _ :: _, [], _, h, _, _ => by simp [Texts] at h
  | (k, v) :: kvs, (k', t) :: ts, dst, h, hn, hd => by
    obtain ⟨rfl, hv, ht, hr⟩ := h
    simp only [List.map_cons, List.nodup_cons] at hn
    have hp : Assoc.put (· == ·) dst k t = dst ++ [(k, t)] := by
      refine Assoc.put_new ?_
      intro kv hkv
      simp only [beq_eq_false_iff_ne]
      rintro rfl
      exact hd _ List.mem_cons_self (List.mem_map_of_mem hkv)
    have ih := strMap_texts kvs ts (dst ++ [(k, t)]) hr hn.2 (by
      intro k' hk' hm
      simp only [List.map_append, List.map_cons, List.map_nil, List.mem_append, List.mem_singleton] at hm
      rcases hm with hm | rfl
      · exact hd k' (List.mem_cons_of_mem _ hk') hm
      · exact hn.1 hk')
    have hs : strMap E dst ((k, v) :: kvs) = (do let t ← valString E v; strMap E (Assoc.put (· == ·) dst k t) kvs) := by
      cases v <;> first | rfl | exact absurd rfl hv
    rw [hs, valString_text hv, ht, Res.bind_ok, hp, ih]
    simp

/-- C98, for objects whose names are stored unescaped and different, whose members are not nil and have a text (C89): the map gets the texts. -/
theorem C98_partial {kvs : List (Bytes × Val)} {ts : List (Bytes × Bytes)} (ku : Bool) (dst : List (Bytes × Bytes)) (h : Texts E kvs ts)
    (hn : (kvs.map Prod.fst).Nodup) (hd : ∀ k ∈ kvs.map Prod.fst, k ∉ dst.map Prod.fst) : toStdStrMap E dst (.obj ku kvs) = .ok (true, dst ++ ts) := by
  simp only [toStdStrMap, strMap_texts kvs ts dst h hn hd, Res.bind_ok]

example : toStdStrMap envEx [] (.obj true [([97], .int 0 7), ([98], .tru)]) = .ok (true, [([97], [55]), ([98], [116, 114, 117, 101])]) :=
  C98_partial true [] ⟨rfl, by simp, by decide +kernel, rfl, by simp, rfl, trivial⟩ (by decide) (by simp)

/-- C98 fails for names that still have their escapes: `{"\/": true}` gives the name `\/`. -/
theorem C98_escaped_name : toStdStrMap envEx [] (.obj false [([92, 47], .tru)]) = .ok (true, [([92, 47], [116, 114, 117, 101])]) ∧ envEx.unesc [92, 47] = [47] := by decide +kernel

/-- C98 fails for nil members: it panics. -/
theorem C98_nil_panics (ku : Bool) (dst : List (Bytes × Bytes)) (k : Bytes) (kvs : List (Bytes × Val)) : toStdStrMap E dst (.obj ku ((k, .nil) :: kvs)) = .panic := rfl

example : strMap envEx [] [([97], .tru), ([98], .nil)] = .panic := rfl

/-! ## C99: the answer -/

/-- C99, refusals: maps take objects only, slices arrays only, structs objects only; what is refused is left alone. -/
theorem C99_refused_partial (v : Val) (hv : v ≠ .nil) :
    (∀ d, v.vt ≠ .object → toStdMap E d v = .ok (false, d)) ∧ (∀ d, v.vt ≠ .object → toStdStrMap E d v = .ok (false, d)) ∧
    (∀ d, v.vt ≠ .array → toStdSlice E d v = .ok (false, d)) ∧ (∀ d, v.vt ≠ .array → toStdStrSlice E d v = .ok (false, d)) := by
  refine ⟨?_, ?_, ?_, ?_⟩ <;> intro d h <;> cases v <;> first | rfl | exact absurd rfl h | exact absurd rfl hv

example : toStdMap envEx [([97], .nil)] (.int 0 7) = .ok (false, [([97], .nil)]) := (C99_refused_partial (.int 0 7) (by simp)).1 _ (by decide)

/-- The truth of a value: numbers by the sign of their bits (see C85), strings by their text, otherwise only true is true. -/
def truthOf (E : Env) : Val → Bool
  | .int _ x | .float x | .double x | .dateTime x => decide (0 < x.toInt)
  | .str s | .raw s => E.equalFold s trueBytes
  | .tru => true
  | _ => false

/-- The number (truth, time) as a value of the type, `none` for other types. -/
def ptrSpec (E : Env) (parse : Bytes → Option F64) (v : Val) : Ty → Option GV
  | .int w => some (.int w ((intOf E v).setWidth w))
  | .uint w => some (.uint w ((intOf E v).setWidth w))
  | .f64 => some (.f64 (doubleOf E v))
  | .f32 => some (.f32 (floatOf E v))
  | .bool => some (.bool (truthOf E v))
  | .time => some (.time (match v with
    | .int .. | .float _ | .double _ | .dateTime _ => some (doubleOf E v)
    | .str s | .raw s => parse s
    | _ => none))
  | _ => none

/-- C99, pointers: it answers true and stores the number (the truth, the time) of the value as the getters give it. -/
theorem C99_pointer_partial (parse : Bytes → Option F64) (v : Val) (hv : v ≠ .nil) (t : Ty) (old g : GV) (h : ptrSpec E parse v t = some g) :
    toStdPtr E parse t old v = .ok (true, g) := by
  cases t <;> simp only [ptrSpec, Option.some.injEq, reduceCtorEq] at h <;> subst h <;> cases v <;> first | rfl | exact absurd rfl hv

/-- C99, pointers to strings. -/
theorem C99_string_partial (parse : Bytes → Option F64) (v : Val) (hv : v ≠ .nil) (old : GV) {t : Bytes} (h : textOf E v = .ok t) :
    toStdPtr E parse .str old v = .ok (true, .str t) := by
  have e : toStdPtr E parse .str old v = (do let s ← valString E v; .ok (true, .str s)) := by cases v <;> first | rfl | exact absurd rfl hv
  rw [e, valString_text hv, h]
  rfl

example : toStdPtr envEx (fun _ => none) (.int 8) .other (.int 0 258) = .ok (true, .int 8 2) :=
  C99_pointer_partial (E := envEx) (fun _ => none) (.int 0 258) (by simp) (.int 8) .other (.int 8 2) rfl

/-- C99 fails for a nil value: it panics, whatever the type. -/
theorem C99_nil_panics (parse : Bytes → Option F64) (t : Ty) (old : GV) (d : List (Bytes × Bytes)) : toStdPtr E parse t old .nil = .panic ∧ toStdStrMap E d .nil = .panic ∧
    (∀ d vs, toStdStrSlice E d (.arr (.nil :: vs)) = .panic) ∧ (∀ d, toStdStrSlice E d .nil = .panic) := ⟨rfl, rfl, fun _ _ => rfl, fun _ => rfl⟩

/-- C99 fails for slices: an array is accepted by `[]string` and `[]interface{}`, and nothing is stored. -/
theorem C99_slice_counterexample : toStdStrSlice envEx [] (.arr [.tru]) = .ok (true, []) ∧ toStdSlice envEx [] (.arr [.tru]) = .ok (true, []) := ⟨rfl, rfl⟩

/-- C99 fails for pointers to slices: arrays are refused, objects are accepted and nothing is stored. -/
theorem C99_slice_pointer_counterexample (old : List GV) (xs : List Val) (ku : Bool) (kvs : List (Bytes × Val)) :
    toStdSlicePtr old (.arr xs) = .ok (false, old) ∧ toStdSlicePtr old (.obj ku kvs) = .ok (true, old) := ⟨rfl, rfl⟩

/-! ## C80: times -/

/-- A field of type `time.Time` is filled from a number with that Delphi time, also from an integer. -/
theorem C80_time_field (parse : Bytes → Option F64) (ic : Bool) (old : GV) (v : Val) (h : v.vt = .int ∨ v.vt = .float ∨ v.vt = .double ∨ v.vt = .dateTime) :
    decVal E parse ic .time old v = .ok (.time (some (doubleOf E v))) := by
  cases v <;> simp [Val.vt] at h <;> rfl

example : decVal envEx (fun _ => none) false .time (.time none) (.int 0 1) = .ok (.time (some (envEx.i64to64 1))) := C80_time_field _ _ _ _ (.inl rfl)

end Dxs.Reflect
