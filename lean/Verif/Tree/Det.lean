import Verif.Tree.Refine
import Verif.Load.Root

/-!
# When the memory decides nothing

The operations on trees do not look at the hidden half of the word of a Float (`canon` drops it), and for statements that do not make a bare
number in recycled memory, do not work on a Null, True, False, NaN or Inf and do not copy one, the oracle does not matter.
-/

namespace Dxs.Heap

/-! ## The visible part of a value -/

mutual
theorem canon_idem : ∀ v : Val, canon (canon v) = canon v
  | .obj ku kvs => by simp only [canon, canonM_idem kvs]
  | .arr xs => by simp only [canon, canonL_idem xs]
  | .float c => by simp [canon, lo32_setLo32]
  | .nil | .str _ | .raw _ | .int _ _ | .double _ | .dateTime _ | .bin _ _ | .exbin _ _ | .null | .tru | .fls | .nan | .inf => rfl
theorem canonM_idem : ∀ kvs : List (Bytes × Val), canonM (canonM kvs) = canonM kvs
  | [] => rfl
  | (k, v) :: kvs => by simp only [canonM, canon_idem v, canonM_idem kvs]
theorem canonL_idem : ∀ xs : List Val, canonL (canonL xs) = canonL xs
  | [] => rfl
  | v :: xs => by simp only [canonL, canon_idem v, canonL_idem xs]
end

theorem canon_vt (v : Val) : (canon v).vt = v.vt := by cases v <;> rfl
theorem canon_nil {v : Val} : canon v = .nil ↔ v = .nil := by cases v <;> simp [canon]

theorem kids_canon (v : Val) : Val.kids (canon v) = (Val.kids v).map canon := by
  cases v <;> simp [canon, Val.kids, canonM_eq, canonL_eq]

theorem sub_canon : ∀ (π : List Nat) (v : Val), Val.sub (canon v) π = (Val.sub v π).map canon
  | [], v => rfl
  | i :: π, v => by
    simp only [Val.sub, kids_canon, List.getElem?_map]
    cases (Val.kids v)[i]? with
    | none => rfl
    | some x => simpa using sub_canon π x

theorem setKid_canon (v : Val) (i : Nat) (w : Val) : canon (Val.setKid v i w) = Val.setKid (canon v) i (canon w) := by
  cases v with
  | obj ku kvs =>
    simp only [Val.setKid, canon, canonM_eq]
    congr 1
    apply List.ext_getElem?
    intro j
    simp only [List.getElem?_modify, List.getElem?_map]
    cases kvs[j]? with
    | none => rfl
    | some x => by_cases e : i = j <;> simp [e]
  | arr xs => simp only [Val.setKid, canon, canonL_eq, List.map_set]
  | _ => rfl

theorem subst_canon : ∀ (π : List Nat) (v w : Val), canon (Val.subst v π w) = Val.subst (canon v) π (canon w)
  | [], v, w => rfl
  | i :: π, v, w => by
    simp only [Val.subst, kids_canon, List.getElem?_map]
    cases (Val.kids v)[i]? with
    | none => rfl
    | some x => simp only [Option.map_some, setKid_canon, subst_canon π x w]

theorem objOf_canon (v : Val) : objOf (canon v) = ((objOf v).1, canonM (objOf v).2) := by cases v <;> rfl
theorem arrOf_canon (v : Val) : arrOf (canon v) = canonL (arrOf v) := by cases v <;> rfl
theorem asIndex_canon (E : Env) (k : Bytes) (v : Val) : asIndex E k (canon v) = asIndex E k v := by cases v <;> rfl

theorem canon_arrPut (xs : List Val) (i : Int) (w : Val) : canon (arrPut xs i w) = arrPut (canonL xs) i (canon w) := by
  unfold arrPut
  rw [canonL_length]
  split <;> simp [canon, canonL_eq, List.map_set]

theorem arrOld_canon (xs : List Val) (i : Int) : arrOld (canonL xs) i = (arrOld xs i).map canon := by
  unfold arrOld
  rw [canonL_length]
  split <;> simp [canonL_eq]

theorem canon_arrIns (xs : List Val) (i : Int) (w : Val) : canon (arrIns xs i w) = arrIns (canonL xs) i (canon w) := by
  simp [arrIns, canon, canonL_eq, List.map_take, List.map_drop]

theorem objOld_canon (E : Env) (ku : Bool) (kvs : List (Bytes × Val)) (k : Bytes) : objOld E ku (canonM kvs) k = (objOld E ku kvs k).map canon := by
  unfold objOld
  rw [canonM_eq, indexByName_map]
  cases (indexByName E ku kvs k).1 with
  | none => rfl
  | some i =>
    simp only [Option.bind_some, List.map_map, List.getElem?_map, Option.map_map]
    rfl

theorem canon_objDel (E : Env) (ku : Bool) (kvs : List (Bytes × Val)) (k : Bytes) : canon (objDel E ku kvs k) = objDel E ku (canonM kvs) k := by
  unfold objDel
  rw [canonM_eq, indexByName_map]
  rcases indexByName E ku kvs k with ⟨_ | i, ku', kvs'⟩
  · simp [canon, canonM_eq]
  · simp only [canon, canonM_eq]
    simp [List.eraseIdx_eq_take_drop_succ, List.map_take, List.map_drop]

theorem canon_putName (E : Env) (v : Val) (k : Bytes) (w : Val) : canon (putName E v k w) = putName E (canon v) k (canon w) := by
  unfold putName
  rw [asIndex_canon, arrOf_canon, objOf_canon]
  split
  · exact canon_arrPut _ _ _
  · exact canon_objPut _ _ _ _ _

theorem oldName_canon (E : Env) (v : Val) (k : Bytes) : oldName E (canon v) k = (oldName E v k).map canon := by
  unfold oldName
  rw [asIndex_canon, arrOf_canon, objOf_canon]
  split
  · exact arrOld_canon _ _
  · exact objOld_canon _ _ _ _

theorem canon_slotOf (t : VT) (c : BitVec 64) (old : Option Val) : canon (slotOf t c (old.map canon)) = canon (slotOf t c old) := by
  cases old with
  | none => rfl
  | some x =>
    simp only [slotOf, Option.map_some, canon_vt, ne_eq, canon_nil]
    split
    · exact canon_idem x
    · rfl

theorem canon_intInto (x : BitVec 64) (v : Val) : canon (intInto x v) = intInto x (canon v) := by cases v <;> rfl

/-- The types whose values are a number in the node. -/
def numeric : VT → Bool
  | .int | .float | .double | .dateTime => true
  | _ => false

theorem blankVal_sure {t : VT} (h : numeric t = false) (c c' : BitVec 64) : blankVal t c = blankVal t c' := by cases t <;> simp [numeric] at h <;> rfl

/-- Whether something is there with this type. -/
def hasType (t : VT) : Option Val → Bool
  | some x => x ≠ .nil ∧ x.vt = t
  | none => false

theorem slotOf_sure {t : VT} {old : Option Val} (h : numeric t = false ∨ hasType t old = true) (c c' : BitVec 64) : slotOf t c old = slotOf t c' old := by
  unfold slotOf
  cases old with
  | none =>
    rcases h with h | h
    · exact blankVal_sure h _ _
    · cases h
  | some x =>
    dsimp only
    split
    · rfl
    · rename_i hx
      rcases h with h | h
      · exact blankVal_sure h _ _
      · simp only [hasType, decide_eq_true_eq] at h; exact absurd h hx

theorem hasType_canon (t : VT) (old : Option Val) : hasType t (old.map canon) = hasType t old := by
  cases old with
  | none => rfl
  | some x => simp only [hasType, Option.map_some, canon_vt, ne_eq, canon_nil]

theorem looked_canon (E : Env) (k : Bytes) (v : Val) : canon (looked E k v) = looked E k (canon v) := by
  cases v <;> try rfl
  simp only [looked, canon, canonM_eq, indexByName_map]

theorem namePos_canon (E : Env) (k : Bytes) (v : Val) : namePos E k (canon v) = namePos E k v := by
  cases v <;> try rfl
  · simp only [namePos, canon, canonM_eq, indexByName_map]
  · simp only [namePos, canon, canonL_length]

theorem lookedPath_canon (E : Env) : ∀ (path : List Bytes) (v : Val), canon (lookedPath E path v) = lookedPath E path (canon v)
  | [], v => rfl
  | k :: path, v => by
    rw [lookedPath, lookedPath, namePos_canon]
    cases namePos E k v with
    | none => exact looked_canon E k v
    | some i =>
      simp only [kids_canon, List.getElem?_map]
      cases (Val.kids v)[i]? with
      | none => exact looked_canon E k v
      | some w =>
        simp only [Option.map_some]
        by_cases hn : w = .nil
        · subst hn; exact looked_canon E k v
        · have h1 : ∀ {α : Type} (a : α) (f : Val → α), (match some w with | none | some .nil => a | some w => f w) = f w := by
            intro α a f; cases w <;> first | exact absurd rfl hn | rfl
          have h2 : ∀ {α : Type} (a : α) (f : Val → α), (match some (canon w) with | none | some .nil => a | some w => f w) = f (canon w) := by
            intro α a f
            have : canon w ≠ .nil := fun h => hn (canon_nil.1 h)
            generalize canon w = w' at this
            cases w' <;> first | exact absurd rfl this | rfl
          have e1 := h1 (looked E k v) (fun w => Val.setKid (looked E k v) i (lookedPath E path w))
          have e2 := h2 (looked E k (canon v)) (fun w => Val.setKid (looked E k (canon v)) i (lookedPath E path w))
          refine (congrArg canon e1).trans (Eq.trans ?_ e2.symm)
          rw [setKid_canon, looked_canon, lookedPath_canon E path w]

/-! ## The operations -/

/-- The visible part of an outcome. -/
def canonR : Res Val → Res Val
  | .ok v => .ok (canon v)
  | .err e => .err e
  | .panic => .panic
  | .loop => .loop

/-- The operation does not show what was in the memory. -/
def Mut.sure (E : Env) (v : Val) : Mut → Bool
  | .reset t => !numeric t
  | .setKey k t => !numeric t || hasType t (oldName E v k)
  | .setIndex i t => !numeric t || hasType t (arrOld (arrOf v) i)
  | _ => true

theorem onName_canon (E : Env) (v : Val) (k : Bytes) (f g : Option Val → Val) (h : canon (f (oldName E v k)) = canon (g ((oldName E v k).map canon))) :
    canonR (onName E v k f) = canonR (onName E (canon v) k g) := by
  unfold onName
  rw [asIndex_canon, oldName_canon]
  have : (Option.map canon (oldName E v k) = some .nil) ↔ oldName E v k = some .nil := by
    cases oldName E v k with
    | none => simp
    | some x => simp [canon_nil]
  simp only [this]
  split
  · rfl
  · simp only [canonR, canon_putName, h, canon_idem]

theorem onIndex_canon (v : Val) (i : Int) (f g : Option Val → Val) (h : canon (f (arrOld (arrOf v) i)) = canon (g ((arrOld (arrOf v) i).map canon))) :
    canon (onIndex v i f) = canon (onIndex (canon v) i g) := by
  unfold onIndex
  rw [arrOf_canon, arrOld_canon, canon_arrPut, canon_arrPut, canonL_idem, h]

theorem Mut.sure_canon (E : Env) (m : Mut) (v : Val) : m.sure E (canon v) = m.sure E v := by
  cases m <;> try rfl
  · simp only [Mut.sure, oldName_canon, hasType_canon]
  · simp only [Mut.sure, arrOf_canon, arrOld_canon, hasType_canon]

theorem canon_float_set (c : BitVec 64) (x : F32) : canon (.float (setLo32 c x)) = .float (setLo32 0 x) := by
  simp [canon, lo32_setLo32]

/-- When nothing of the memory shows, an operation does the same to all trees that look alike. -/
theorem Mut.det (E : Env) (m : Mut) (c c' : BitVec 64) (v : Val) (hs : m.sure E v = true) : canonR (m.onTree E c v) = canonR (m.onTree E c' (canon v)) := by
  cases m with
  | reset t =>
    simp only [Mut.sure, Bool.not_eq_true'] at hs
    simp only [Mut.onTree]
    rw [blankVal_sure hs c c']
  | setInt x => simp only [Mut.onTree, canonR]; rw [canon_intInto, canon_intInto, canon_idem]
  | setString x => rfl
  | setBool x => rfl
  | setDouble x => simp only [Mut.onTree, canon_vt]
  | setTime x => simp only [Mut.onTree, canon_vt]
  | setFloat x => simp only [Mut.onTree, canonR, canon_float_set]
  | setBinary x =>
    cases v with
    | exbin e b => cases b <;> rfl
    | _ => simp only [canon, Mut.onTree, canonR, canonM_idem, canonL_idem, lo32_setLo32]
  | setExtType x => cases v <;> simp only [canon, Mut.onTree, canonR, canonM_idem, canonL_idem, lo32_setLo32]
  | setKey k t =>
    simp only [Mut.sure, Bool.or_eq_true, Bool.not_eq_true'] at hs
    exact onName_canon E v k _ _ (by rw [slotOf_sure hs c c', canon_slotOf])
  | setKeyString k x => simp only [Mut.onTree]; exact onName_canon E v k _ _ rfl
  | setKeyInt k x =>
    simp only [Mut.onTree]
    refine onName_canon E v k _ _ ?_
    rw [canon_intInto, canon_intInto, canon_slotOf]
  | setKeyFloat k x => simp only [Mut.onTree]; exact onName_canon E v k _ _ (by rw [canon_float_set, canon_float_set])
  | setKeyDouble k x => simp only [Mut.onTree]; exact onName_canon E v k _ _ rfl
  | setKeyBool k x => simp only [Mut.onTree, canonR, canon_putName, canon_idem]
  | setKeyTime k x => simp only [Mut.onTree]; exact onName_canon E v k _ _ rfl
  | setIndex i t =>
    simp only [Mut.sure, Bool.or_eq_true, Bool.not_eq_true'] at hs
    exact congrArg Res.ok (onIndex_canon v i _ _ (by rw [slotOf_sure hs c c', canon_slotOf]))
  | setIndexString i x => exact congrArg Res.ok (onIndex_canon v i _ _ rfl)
  | setIndexInt i x =>
    refine congrArg Res.ok (onIndex_canon v i _ _ ?_)
    rw [canon_intInto, canon_intInto, canon_slotOf]
  | setIndexFloat i x => exact congrArg Res.ok (onIndex_canon v i _ _ (by rw [canon_float_set, canon_float_set]))
  | setIndexDouble i x => exact congrArg Res.ok (onIndex_canon v i _ _ rfl)
  | setIndexBool i x => exact congrArg Res.ok (onIndex_canon v i _ _ rfl)
  | setIndexTime i x => exact congrArg Res.ok (onIndex_canon v i _ _ rfl)
  | insertValue i t => simp only [Mut.onTree, canonR, canon_arrIns, arrOf_canon, canonL_idem]
  | append t => simp only [Mut.onTree, canonR, canon_arrIns, arrOf_canon, canonL_idem]
  | removeKey k =>
    cases v with
    | obj ku kvs => simp only [canon, Mut.onTree, canonR, canon_objDel, canonM_idem]
    | _ => simp only [canon, Mut.onTree, canonR, canonL_idem, lo32_setLo32]
  | extractValue k =>
    cases v with
    | obj ku kvs => simp only [canon, Mut.onTree, canonR, canon_objDel, canonM_idem]
    | _ => simp only [canon, Mut.onTree, canonR, canonL_idem, lo32_setLo32]
  | removeIndex i =>
    cases v with
    | arr xs =>
      simp only [canon, Mut.onTree, canonR, canonL_length]
      split
      · simp [canonL_eq, canon_idem, List.map_take, List.map_drop, Function.comp_def]
      · rw [canonL_idem]
    | _ => simp only [canon, Mut.onTree, canonR, canonM_idem, lo32_setLo32]
  | valueByName k => simp only [Mut.onTree, canonR, looked_canon, canon_idem]
  | valueByPath path => simp only [Mut.onTree, canonR, lookedPath_canon, canon_idem]
  | items i =>
    cases v with
    | obj ku kvs =>
      simp only [canon, Mut.onTree, canonM_length]
      split
      · simp only [canonR, canon, canonM_eq, unescKeys_map, List.map_map]
        simp [Function.comp_def, canon_idem]
      · simp only [canonR, canon, canonM_idem]
    | _ => simp only [canon, Mut.onTree, canonR, canonL_idem, lo32_setLo32]
  | string json => cases v <;> simp only [canon, Mut.onTree, canonR, canonM_idem, canonL_idem, lo32_setLo32]

/-! ## The statements -/

/-- The visible parts. -/
def canonT (T : Trees) : Trees := fun i => canon (T i)

/-- The visible part of an outcome. -/
def canonTR : Res Trees → Res Trees
  | .ok T => .ok (canonT T)
  | .err e => .err e
  | .panic => .panic
  | .loop => .loop

theorem canonT_idem (T : Trees) : canonT (canonT T) = canonT T := funext fun i => canon_idem (T i)

theorem canonT_put (T : Trees) (i : Nat) (v : Val) : canonT (T.put i v) = (canonT T).put i (canon v) := by
  funext k
  simp only [canonT, Trees.put]
  split <;> rfl

theorem walk_canon (T : Trees) (i : Nat) (π : List Nat) : Trees.walk (canonT T) i π = canonR (T.walk i π) := by
  unfold Trees.walk canonT
  rw [sub_canon]
  cases Val.sub (T i) π with
  | none => rfl
  | some w => cases w <;> rfl

theorem isConst_canon (v : Val) : isConst (canon v) = isConst v := by cases v <;> rfl

mutual
theorem height_canon : ∀ v : Val, height (canon v) = height v
  | .obj ku kvs => by simp only [canon, height, heightM_canon kvs]
  | .arr xs => by simp only [canon, height, heightL_canon xs]
  | .float c => rfl
  | .nil | .str _ | .raw _ | .int _ _ | .double _ | .dateTime _ | .bin _ _ | .exbin _ _ | .null | .tru | .fls | .nan | .inf => rfl
theorem heightM_canon : ∀ kvs : List (Bytes × Val), heightM (canonM kvs) = heightM kvs
  | [] => rfl
  | (k, v) :: kvs => by simp only [canonM, heightM, height_canon v, heightM_canon kvs]
theorem heightL_canon : ∀ xs : List Val, heightL (canonL xs) = heightL xs
  | [] => rfl
  | v :: xs => by simp only [canonL, heightL, height_canon v, heightL_canon xs]
end

mutual
theorem noConst_canon : ∀ v : Val, noConst (canon v) = noConst v
  | .obj ku kvs => by simp only [canon, noConst, noConstM_canon kvs]
  | .arr xs => by simp only [canon, noConst, noConstL_canon xs]
  | .float c => rfl
  | .nil | .str _ | .raw _ | .int _ _ | .double _ | .dateTime _ | .bin _ _ | .exbin _ _ | .null | .tru | .fls | .nan | .inf => rfl
theorem noConstM_canon : ∀ kvs : List (Bytes × Val), noConstM (canonM kvs) = noConstM kvs
  | [] => rfl
  | (k, v) :: kvs => by simp only [canonM, noConstM, noConst_canon v, noConstM_canon kvs]
theorem noConstL_canon : ∀ xs : List Val, noConstL (canonL xs) = noConstL xs
  | [] => rfl
  | v :: xs => by simp only [canonL, noConstL, noConst_canon v, noConstL_canon xs]
end

mutual
theorem noNil_canon : ∀ v : Val, noNil (canon v) = noNil v
  | .obj ku kvs => by simp only [canon, noNil, noNilM_canon kvs]
  | .arr xs => by simp only [canon, noNil, noNilL_canon xs]
  | .float c => rfl
  | .nil | .str _ | .raw _ | .int _ _ | .double _ | .dateTime _ | .bin _ _ | .exbin _ _ | .null | .tru | .fls | .nan | .inf => rfl
theorem noNilM_canon : ∀ kvs : List (Bytes × Val), noNilM (canonM kvs) = noNilM kvs
  | [] => rfl
  | (k, v) :: kvs => by simp only [canonM, noNilM, noNil_canon v, noNilM_canon kvs]
theorem noNilL_canon : ∀ xs : List Val, noNilL (canonL xs) = noNilL xs
  | [] => rfl
  | v :: xs => by simp only [canonL, noNilL, noNil_canon v, noNilL_canon xs]
end

mutual
theorem clone_canon : ∀ v : Val, canon (cloneVal v) = cloneVal (canon v)
  | .obj ku kvs => by simp only [canon, cloneVal, cloneM_canon kvs]
  | .arr xs => by simp only [canon, cloneVal, cloneL_canon xs]
  | .float c => rfl
  | .nil | .str _ | .raw _ | .int _ _ | .double _ | .dateTime _ | .bin _ _ | .exbin _ _ | .null | .tru | .fls | .nan | .inf => rfl
theorem cloneM_canon : ∀ kvs : List (Bytes × Val), canonM (cloneVals kvs) = cloneVals (canonM kvs)
  | [] => rfl
  | (k, v) :: kvs => by simp only [canonM, cloneVals, clone_canon v, cloneM_canon kvs]
theorem cloneL_canon : ∀ xs : List Val, canonL (cloneValL xs) = cloneValL (canonL xs)
  | [] => rfl
  | v :: xs => by simp only [canonL, cloneValL, clone_canon v, cloneL_canon xs]
end

theorem addVal_canon (v w : Val) : addVal (canon v) (canon w) = (addVal v w).map canon := by
  cases v <;> cases w <;> simp [canon, addVal, canonM_append, canonL_append, cloneM_canon, cloneL_canon]

theorem clear_canon (v : Val) : canon (clearVal v) = clearVal (canon v) := by cases v <;> rfl

/-- A value the oracle leaves alone. -/
def plainAt : Res Val → Bool
  | .ok v => !isConst v
  | _ => true

/-- Copying the value does not depend on the memory. -/
def plainCopy (f : Nat) : Res Val → Bool
  | .ok w => decide (f < height w) || noConst w
  | _ => true

/-- The statement shows nothing of the memory. -/
def Cmd.sure (E : Env) (T : Trees) : Cmd → Bool
  | .newCached _ t _ => !numeric t
  | .act i π m =>
    match T.walk i π with
    | .ok v => !isConst v && m.sure E v
    | _ => true
  | .putKey i π _ _ | .putIndex i π _ _ => plainAt (T.walk i π)
  | .free i _ => plainAt (T.walk i [])
  | .clone _ j π _ _ f => plainCopy f (T.walk j π)
  | .copyFrom i π j ρ f | .addFrom i π j ρ f => plainAt (T.walk i π) && plainCopy f (T.walk j ρ)
  | _ => true

/-- The same statement without caches: nothing is taken from the pool, and `FreeValue` is called once. -/
def Cmd.plain : Cmd → Cmd
  | .newCached i t _ => .newValue i t
  | .newObject i _ _ => .newObject i false none
  | .newArray i _ _ => .newArray i false none
  | .clone i j π _ _ f => .clone i j π false none f
  | .free i _ => .free i 0
  | c => c

theorem skip_plain {o : Orc} {v : Val} (h : isConst v = false) : o.skip v = false := by simp [Orc.skip, h]

theorem copies_plain {o o' : Orc} {f : Nat} {w : Val} (h : plainCopy f (.ok w) = true) : o.copies f w = o'.copies f w := by
  unfold Orc.copies
  simp only [plainCopy, Bool.or_eq_true, decide_eq_true_eq] at h
  rcases h with h | h
  · have : ¬ height w ≤ f := by omega
    simp [this]
  · simp [h]

theorem copies_canon (o : Orc) (f : Nat) (w : Val) : o.copies f (canon w) = o.copies f w := by
  unfold Orc.copies; rw [height_canon, noConst_canon]

theorem skip_canon (o : Orc) (v : Val) : o.skip (canon v) = o.skip v := by unfold Orc.skip; rw [isConst_canon]

theorem canonTR_put {T : Trees} {i : Nat} {v w : Val} (h : canon v = canon w) : canonTR (.ok (T.put i v)) = canonTR (.ok ((canonT T).put i w)) := by
  simp only [canonTR, canonT_put, canonT_idem, h]

theorem Cmd.sure_canon (E : Env) (T : Trees) (c : Cmd) : c.sure E (canonT T) = c.sure E T := by
  have hp : ∀ r, plainAt (canonR r) = plainAt r := by
    intro r; cases r <;> simp [plainAt, canonR, isConst_canon]
  have hc : ∀ f r, plainCopy f (canonR r) = plainCopy f r := by
    intro f r; cases r <;> simp [plainCopy, canonR, height_canon, noConst_canon]
  cases c <;> simp only [Cmd.sure, walk_canon, hp, hc]
  case act i π m =>
    cases T.walk i π <;> simp only [canonR]
    simp only [isConst_canon, Mut.sure_canon]

/-- When nothing of the memory shows, a statement does the same to all trees that look alike. -/
theorem Cmd.det (E : Env) (c : Cmd) (o o' : Orc) (T : Trees) (hs : c.sure E T = true) :
    canonTR (c.onTree E o T) = canonTR (c.plain.onTree E o' (canonT T)) := by
  cases c with
  | newValue i t => exact canonTR_put rfl
  | newCached i t pick =>
    simp only [Cmd.sure, Bool.not_eq_true'] at hs
    simp only [Cmd.onTree, Cmd.plain]
    exact canonTR_put (by rw [blankVal_sure hs o.cell 0])
  | newObject i b pick => exact canonTR_put rfl
  | newArray i b pick => exact canonTR_put rfl
  | act i π m =>
    simp only [Cmd.onTree, Cmd.plain, walk_canon]
    simp only [Cmd.sure] at hs
    cases hw : T.walk i π <;> simp only [hw] at hs <;> simp only [canonR] <;> try rfl
    rename_i v
    simp only [Bool.and_eq_true, Bool.not_eq_true'] at hs
    simp only [Res.bind_ok, skip_plain hs.1, skip_canon]
    have := Mut.det E m o.cell o'.cell v hs.2
    cases h1 : m.onTree E o.cell v <;> cases h2 : m.onTree E o'.cell (canon v) <;> simp only [h1, h2, canonR, reduceCtorEq, Res.ok.injEq, Res.err.injEq] at this <;>
      simp only [Bool.false_eq_true, if_false, Res.bind_ok, Res.bind_panic, Res.bind_loop, Res.bind_err, canonTR, this]
    simp only [canonT_put, canonT_idem, subst_canon, canonT, canon_idem, this]
  | putKey i π k j =>
    simp only [Cmd.onTree, Cmd.plain, walk_canon]
    simp only [Cmd.sure] at hs
    cases hw : T.walk i π <;> simp only [hw] at hs <;> simp only [canonR] <;> try rfl
    rename_i v
    simp only [plainAt, Bool.not_eq_true'] at hs
    simp only [Res.bind_ok, skip_plain hs, skip_canon, Bool.false_or]
    split
    · simp only [canonTR, canonT_idem]
    · simp only [canonTR, canonT_put, canonT_idem, subst_canon, canonT, canon_idem, canon_putName]
  | putIndex i π n j =>
    simp only [Cmd.onTree, Cmd.plain, walk_canon]
    simp only [Cmd.sure] at hs
    cases hw : T.walk i π <;> simp only [hw] at hs <;> simp only [canonR] <;> try rfl
    rename_i v
    simp only [plainAt, Bool.not_eq_true'] at hs
    simp only [Res.bind_ok, skip_plain hs, skip_canon, Bool.false_or]
    split
    · simp only [canonTR, canonT_idem]
    · simp only [canonTR, canonT_put, canonT_idem, subst_canon, canonT, canon_idem, canon_arrPut, arrOf_canon, canonL_idem]
  | clear i =>
    simp only [Cmd.onTree, Cmd.plain, walk_canon]
    cases hw : T.walk i [] <;> simp only [canonR] <;> try rfl
    simp only [Res.bind_ok]
    exact canonTR_put (by rw [clear_canon, clear_canon, canon_idem])
  | free i n =>
    simp only [Cmd.onTree, Cmd.plain, walk_canon]
    simp only [Cmd.sure] at hs
    cases hw : T.walk i [] <;> simp only [hw] at hs <;> simp only [canonR] <;> try rfl
    simp only [plainAt, Bool.not_eq_true'] at hs
    simp only [Res.bind_ok, skip_plain hs, skip_canon]
    exact canonTR_put rfl
  | forget i => exact canonTR_put rfl
  | clone i j π b pick f =>
    simp only [Cmd.onTree, Cmd.plain, walk_canon]
    simp only [Cmd.sure] at hs
    cases hw : T.walk j π <;> simp only [hw] at hs <;> simp only [canonR] <;> try rfl
    simp only [Res.bind_ok, copies_canon, copies_plain (o := o) (o' := o') hs, noNil_canon]
    split
    · simp only [canonTR, canonT_idem]
    · split
      · exact canonTR_put (by rw [clone_canon, clone_canon, canon_idem])
      · rfl
  | copyFrom i π j ρ f =>
    simp only [Cmd.onTree, Cmd.plain, walk_canon]
    simp only [Cmd.sure, Bool.and_eq_true] at hs
    cases hw : T.walk i π <;> simp only [hw] at hs <;> simp only [canonR] <;> try rfl
    cases hw' : T.walk j ρ <;> simp only [hw'] at hs <;> simp only [canonR] <;> try rfl
    simp only [plainAt, Bool.not_eq_true'] at hs
    simp only [Res.bind_ok, copies_canon, copies_plain (o := o) (o' := o') hs.2, noNil_canon, skip_plain hs.1, skip_canon]
    split
    · simp only [canonTR, canonT_idem]
    · split
      · simp only [canonTR, canonT_put, canonT_idem, subst_canon, canonT, canon_idem, clone_canon]
      · rfl
  | addFrom i π j ρ f =>
    simp only [Cmd.onTree, Cmd.plain, walk_canon]
    simp only [Cmd.sure, Bool.and_eq_true] at hs
    cases hw : T.walk i π <;> simp only [hw] at hs <;> simp only [canonR] <;> try rfl
    cases hw' : T.walk j ρ <;> simp only [hw'] at hs <;> simp only [canonR] <;> try rfl
    simp only [plainAt, Bool.not_eq_true'] at hs
    simp only [Res.bind_ok, copies_canon, copies_plain (o := o) (o' := o') hs.2, noNil_canon, skip_plain hs.1, skip_canon, addVal_canon]
    split
    · simp only [canonTR, canonT_idem]
    · rename_i v w _
      cases addVal v w with
      | none => simp only [canonTR, canonT_idem, Option.map_none]
      | some v' =>
        simp only [Option.map_some]
        split
        · simp only [canonTR, canonT_put, canonT_idem, subst_canon, canonT, canon_idem]
        · rfl

/-! ## Programs -/

/-- A program on trees, without oracles and caches. -/
def treeRun (E : Env) : Trees → List Cmd → Res Trees
  | T, [] => .ok T
  | T, c :: cs => do
    let T ← c.plain.onTree E {} T
    treeRun E T cs

/-- No statement shows anything of the memory. -/
def sureAll (E : Env) : Trees → List Cmd → Bool
  | _, [] => true
  | T, c :: cs =>
    c.sure E T && match c.plain.onTree E {} T with
      | .ok T => sureAll E T cs
      | _ => true

theorem treeAll_det (E : Env) : ∀ (cs : List Cmd) (os : List Orc) (T T' : Trees), os.length = cs.length → canonT T = canonT T' → sureAll E T' cs = true →
    canonTR (treeAll E T (cs.zip os)) = canonTR (treeRun E T' cs)
  | [], os, T, T', _, hT, _ => by simp only [List.zip_nil_left, treeAll, treeRun, canonTR, hT]
  | c :: cs, [], _, _, hl, _, _ => by cases hl
  | c :: cs, o :: os, T, T', hl, hT, hs => by
    simp only [sureAll, Bool.and_eq_true] at hs
    have hsT : c.sure E T = true := by rw [← Cmd.sure_canon, hT, Cmd.sure_canon]; exact hs.1
    have hsP : c.plain.sure E T' = true := by
      have := hs.1
      cases c <;> first | exact this | rfl
    have h1 := Cmd.det E c o {} T hsT
    have h2 := Cmd.det E c.plain {} {} T' hsP
    have hpp : c.plain.plain = c.plain := by cases c <;> rfl
    rw [hpp] at h2
    rw [hT, ← h2] at h1
    simp only [List.zip_cons_cons, treeAll, treeRun]
    cases e1 : c.onTree E o T <;> cases e2 : c.plain.onTree E {} T' <;> simp only [e1, e2, canonTR, reduceCtorEq, Res.ok.injEq, Res.err.injEq] at h1 <;>
      simp only [Res.bind_ok, Res.bind_panic, Res.bind_loop, Res.bind_err, canonTR, h1]
    simp only [e2] at hs
    exact treeAll_det E cs os _ _ (by simpa using hl) h1 hs.2

end Dxs.Heap
