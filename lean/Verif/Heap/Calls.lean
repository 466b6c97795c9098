import Verif.Heap.CopyStep

/-!
# The calls a program can make

`Call` lists the exported operations that create, change or read values; `run` performs one. The arguments are arbitrary
pointers: shared constants, values in use, values already freed, values stored in several places or inside themselves.
A cache argument (`SetKeyCached`, `AddFrom`, ...) is nil or the cache of some value (`ValueCache()`, dxvalue.go:188-190).
-/

namespace Dxs.Heap

/-- An exported operation with its arguments. -/
inductive Call where
  | newValue (t : VT)
  | newCacheValue (t : VT) (pick : Option Nat)
  | newObject (cached : Bool) (pick : Option Nat)
  | newArray (cached : Bool) (pick : Option Nat)
  | clear (p : Ptr)
  | freeValue (p : Option Ptr)
  | reset (p : Ptr) (t : VT)
  | removeKey (p : Ptr) (k : Bytes)
  | extractValue (p : Ptr) (k : Bytes)
  | removeIndex (p : Ptr) (i : Int)
  | setInt (p : Ptr) (x : BitVec 64)
  | setString (p : Ptr) (x : Bytes)
  | setBool (p : Ptr) (x : Bool)
  | setDouble (p : Ptr) (x : F64)
  | setTime (p : Ptr) (x : F64)
  | setFloat (p : Ptr) (x : F32)
  | setBinary (p : Ptr) (x : Bytes)
  | setExtType (p : Ptr) (x : UInt8)
  | setKey (p : Ptr) (k : Bytes) (t : VT)
  | setKeyCached (p : Ptr) (k : Bytes) (t : VT) (cache : Option Ptr)
  | setKeyValue (p : Ptr) (k : Bytes) (v : Option Ptr)
  | setKeyString (p : Ptr) (k : Bytes) (x : Bytes)
  | setKeyInt (p : Ptr) (k : Bytes) (x : BitVec 64)
  | setKeyFloat (p : Ptr) (k : Bytes) (x : F32)
  | setKeyDouble (p : Ptr) (k : Bytes) (x : F64)
  | setKeyBool (p : Ptr) (k : Bytes) (x : Bool)
  | setKeyTime (p : Ptr) (k : Bytes) (x : F64)
  | setIndex (p : Ptr) (i : Int) (t : VT)
  | setIndexCached (p : Ptr) (i : Int) (t : VT) (cache : Option Ptr)
  | setIndexValue (p : Ptr) (i : Int) (v : Option Ptr)
  | setIndexString (p : Ptr) (i : Int) (x : Bytes)
  | setIndexInt (p : Ptr) (i : Int) (x : BitVec 64)
  | setIndexFloat (p : Ptr) (i : Int) (x : F32)
  | setIndexDouble (p : Ptr) (i : Int) (x : F64)
  | setIndexBool (p : Ptr) (i : Int) (x : Bool)
  | setIndexTime (p : Ptr) (i : Int) (x : F64)
  | insertValue (p : Ptr) (i : Int) (t : VT)
  | append (p : Ptr) (t : VT)
  | forcePath (p : Ptr) (t : VT) (path : List Bytes)
  | valueByName (p : Ptr) (k : Bytes)
  | valueByPath (p : Ptr) (path : List Bytes)
  | string (p : Ptr) (json : Res Bytes)
  | items (p : Ptr) (i : Int)
  | clone (fuel : Nat) (p : Ptr) (cached : Bool) (pick : Option Nat)
  | addFrom (fuel : Nat) (p : Ptr) (s : Option Ptr) (cache : Option Ptr)
  | copyFrom (fuel : Nat) (p : Ptr) (s : Option Ptr) (cache : Option Ptr)
  | equal (fuel : Nat) (a b : Option Ptr)
  | mergeWith (fuel : Nat) (mf : Option MergeFunc) (v w : Option Ptr)

/-- The cache of a value. -/
def cacheOf (h : Heap) (p : Option Ptr) : Option CId := p.bind (fun p => (h.mem p).owner)

/-- Perform a call. A call that panics or does not return has no state afterwards. -/
def Call.run (E : Env) (h : Heap) : Call → Res Heap
  | .newValue t => .ok (Heap.newValue h t).2
  | .newCacheValue t pick => .ok (Heap.newCacheValue h t pick).2
  | .newObject c pick => .ok (Heap.newObject h c pick).2
  | .newArray c pick => .ok (Heap.newArray h c pick).2
  | .clear p => .ok (Heap.clear h p)
  | .freeValue p => .ok (Heap.freeValue h p)
  | .reset p t => .ok (Heap.reset h p t)
  | .removeKey p k => .ok (Heap.removeKey E h p k)
  | .extractValue p k => .ok (Heap.extractValue E h p k).2
  | .removeIndex p i => .ok (Heap.removeIndex h p i)
  | .setInt p x => .ok (Heap.setInt h p x)
  | .setString p x => .ok (Heap.setString h p x)
  | .setBool p x => .ok (Heap.setBool h p x)
  | .setDouble p x => .ok (Heap.setDouble h p x)
  | .setTime p x => .ok (Heap.setTime h p x)
  | .setFloat p x => .ok (Heap.setFloat h p x)
  | .setBinary p x => .ok (Heap.setBinary h p x)
  | .setExtType p x => .ok (Heap.setExtType h p x)
  | .setKey p k t => (Heap.setKey E h p k t).bind (fun r => .ok r.2)
  | .setKeyCached p k t c => (Heap.setKeyCached E h p k t (cacheOf h c)).bind (fun r => .ok r.2)
  | .setKeyValue p k v => .ok (Heap.setKeyValue E h p k v)
  | .setKeyString p k x => Heap.setKeyString E h p k x
  | .setKeyInt p k x => Heap.setKeyInt E h p k x
  | .setKeyFloat p k x => Heap.setKeyFloat E h p k x
  | .setKeyDouble p k x => Heap.setKeyDouble E h p k x
  | .setKeyBool p k x => .ok (Heap.setKeyBool E h p k x)
  | .setKeyTime p k x => Heap.setKeyTime E h p k x
  | .setIndex p i t => .ok (Heap.setIndex h p i t).2
  | .setIndexCached p i t c => .ok (Heap.setIndexCached h p i t (cacheOf h c)).2
  | .setIndexValue p i v => .ok (Heap.setIndexValue h p i v)
  | .setIndexString p i x => .ok (Heap.setIndexString h p i x)
  | .setIndexInt p i x => .ok (Heap.setIndexInt h p i x)
  | .setIndexFloat p i x => .ok (Heap.setIndexFloat h p i x)
  | .setIndexDouble p i x => .ok (Heap.setIndexDouble h p i x)
  | .setIndexBool p i x => .ok (Heap.setIndexBool h p i x)
  | .setIndexTime p i x => .ok (Heap.setIndexTime h p i x)
  | .insertValue p i t => .ok (Heap.insertValue h p i t).2
  | .append p t => .ok (Heap.append h p t).2
  | .forcePath p t path => (Heap.forcePath E h p t path).bind (fun r => .ok r.2)
  | .valueByName p k => .ok (Heap.valueByName E h p k).2
  | .valueByPath p path => .ok (Heap.valueByPath E h p path).2
  | .string p json => .ok (h.set p (getString E json (h.mem p)).2)
  | .items p i => .ok (Heap.items E h p i).2
  | .clone f p c pick => (cloneTop f h p c pick).bind (fun r => .ok r.2)
  | .addFrom f p s c => Heap.addFrom f h p s (cacheOf h c)
  | .copyFrom f p s c => Heap.copyFrom f h p s (cacheOf h c)
  | .equal f a b => (Heap.equal E f h a b).bind (fun r => .ok r.2)
  | .mergeWith f mf v w => Heap.mergeWith E mf f h v w

/-- A history: calls one after the other. -/
def runAll (E : Env) : Heap → List Call → Res Heap
  | h, [] => .ok h
  | h, c :: cs => do
    let h ← c.run E h
    runAll E h cs

theorem Res.bind_snd {α : Type} {x : Res (α × Heap)} {h' : Heap} (e : x.bind (fun r => .ok r.2) = .ok h') : ∃ q, x = .ok (q, h') := by
  cases x <;> simp [Res.bind] at e
  rename_i a; exact ⟨a.1, by rw [← e]⟩

section
variable {h : Heap}

theorem Inv.cacheOf (I : Inv h) (p : Option Ptr) : ∀ d, Heap.cacheOf h p = some d → d < h.nextC := by
  intro d hd
  cases p with
  | none => cases hd
  | some p => exact I.owner p d hd

theorem Inv.keyX (I : Inv h) (E : Env) (p : Ptr) (k : Bytes) (t : VT) (f : Heap → Ptr → Heap) (hf : ∀ h q, Inv h → Inv (f h q)) {h' : Heap}
    (e : (do let (q, h) ← Heap.setKey E h p k t; Res.ok (f h q)) = .ok h') : Inv h' := by
  rw [Res.bind_eq_ok] at e
  obtain ⟨⟨q, h1⟩, e1, e⟩ := e
  cases e
  exact hf h1 q (I.setKey_st (X := anyCache) E p k t (by simp) e1).inv

/-- Well-formedness of the memory, in particular the types of the constants, survives every call. -/
theorem Inv.call (I : Inv h) (E : Env) (c : Call) {h' : Heap} (e : c.run E h = .ok h') : Inv h' := by
  have nc : ∀ t pick, Inv (Heap.newCacheValue h t pick).2 := fun t pick => I.newCacheValue t pick
  have nn : ∀ n, n.owner = none → Inv (h.new n).2 := fun n hn => (new_step (X := anyCache) I n hn).inv
  have idx : ∀ p i t, Inv (Heap.setIndex h p i t).2 := fun p i t => (I.setIndex_st (X := anyCache) p i t (by simp)).inv
  have st : ∀ {h : Heap} q x, Inv h → Inv (h.upd q (fun n => { n with str := x })) := fun q x I => (I.upd_st (X := anyCache) q _ (by intro n; exact ⟨rfl, rfl⟩)).inv
  cases c <;> simp only [Call.run, Res.ok.injEq] at e
  case newValue t => subst e; exact (newValue_step (X := anyCache) I t).inv
  case newCacheValue t pick => subst e; exact nc t pick
  case newObject c pick =>
    subst e; unfold Heap.newObject; split
    · exact nc _ _
    · exact nn _ rfl
  case newArray c pick =>
    subst e; unfold Heap.newArray; split
    · exact nc _ _
    · exact nn _ rfl
  case clear p => subst e; exact I.clear p
  case freeValue p => subst e; exact I.freeValue p
  case reset p t => subst e; exact I.reset p t
  case removeKey p k => subst e; exact (I.removeKey_st (X := anyCache) E p k).inv
  case extractValue p k => subst e; exact (I.extractValue_st (X := anyCache) E p k).inv
  case removeIndex p i => subst e; exact (I.removeIndex_st (X := anyCache) p i).inv
  case setInt p x => subst e; exact (I.setInt_st (X := anyCache) p x).inv
  case setString p x => subst e; exact (I.setString_st (X := anyCache) p x).inv
  case setBool p x => subst e; exact (I.setBool_st (X := anyCache) p x).inv
  case setDouble p x => subst e; exact (I.setDouble_st (X := anyCache) p x).inv
  case setTime p x => subst e; exact (I.setTime_st (X := anyCache) p x).inv
  case setFloat p x => subst e; exact (I.setFloat_st (X := anyCache) p x).inv
  case setBinary p x => subst e; exact (I.setBinary_st (X := anyCache) p x).inv
  case setExtType p x => subst e; exact (I.setExtType_st (X := anyCache) p x).inv
  case setKey p k t =>
    obtain ⟨q, e⟩ := Res.bind_snd e
    exact (I.setKey_st (X := anyCache) E p k t (by simp) e).inv
  case setKeyCached p k t c =>
    obtain ⟨q, e⟩ := Res.bind_snd e
    exact (I.setKeyCached_st (X := anyCache) E p k t _ (I.cacheOf c) (by simp) (by simp) e).inv
  case setKeyValue p k v => subst e; exact (I.setKeyValue_st (X := anyCache) E p k v).inv
  case setKeyString p k x => exact I.keyX E p k .string (fun h q => h.upd q (fun n => { n with str := x })) (fun h q I => st q x I) e
  case setKeyInt p k x => exact I.keyX E p k .int (fun h q => Heap.setInt h q x) (fun h q I => (I.setInt_st (X := anyCache) q x).inv) e
  case setKeyFloat p k x => exact I.keyX E p k .float (fun h q => Heap.setFloat h q x) (fun h q I => (I.setFloat_st (X := anyCache) q x).inv) e
  case setKeyDouble p k x => exact I.keyX E p k .double (fun h q => Heap.setDouble h q x) (fun h q I => (I.setDouble_st (X := anyCache) q x).inv) e
  case setKeyBool p k x => subst e; exact (I.setKeyValue_st (X := anyCache) E p k _).inv
  case setKeyTime p k x => exact I.keyX E p k .dateTime (fun h q => Heap.setTime h q x) (fun h q I => (I.setTime_st (X := anyCache) q x).inv) e
  case setIndex p i t => subst e; exact idx p i t
  case setIndexCached p i t c => subst e; exact (I.setIndexCached_st (X := anyCache) p i t _ (I.cacheOf c) (by simp)).inv
  case setIndexValue p i v => subst e; exact (I.setIndexValue_st (X := anyCache) p i v).inv
  case setIndexString p i x => subst e; exact st _ x (idx p i _)
  case setIndexInt p i x => subst e; exact ((idx p i _).setInt_st (X := anyCache) _ x).inv
  case setIndexFloat p i x => subst e; exact ((idx p i _).setFloat_st (X := anyCache) _ x).inv
  case setIndexDouble p i x => subst e; exact ((idx p i _).setDouble_st (X := anyCache) _ x).inv
  case setIndexBool p i x => subst e; exact idx p i _
  case setIndexTime p i x => subst e; exact ((idx p i _).setTime_st (X := anyCache) _ x).inv
  case insertValue p i t => subst e; exact (I.insertValue_st (X := anyCache) p i t).inv
  case append p t => subst e; exact (I.append_st (X := anyCache) p t).inv
  case forcePath p t path =>
    obtain ⟨q, e⟩ := Res.bind_snd e
    exact (forceLoop_st E t path _ _ _ _ q I e).inv
  case valueByName p k => subst e; exact (I.valueByName_st (X := anyCache) E p k).inv
  case valueByPath p path => subst e; exact (Inv.valueByPath_st (X := anyCache) E path I p).inv
  case string p json => subst e; exact (I.getString_st (X := anyCache) E json p).inv
  case items p i => subst e; exact (I.items_st (X := anyCache) E p i).inv
  case clone f p c pick =>
    obtain ⟨q, e⟩ := Res.bind_snd e
    unfold cloneTop at e
    split at e
    · have hg := I.getCache pick
      generalize Heap.getCache h pick = r at hg e
      obtain ⟨c, h1⟩ := r
      exact (hg.1.clone_st (X := anyCache) f (some c) (fun d hd => by cases hd; exact hg.2) (by simp) e).inv
    · exact (I.clone_st (X := anyCache) f none (by simp) (by simp) e).inv
  case addFrom f p s c => exact (I.addFrom_st (X := anyCache) f p s _ (I.cacheOf c) (by simp) (by simp) e).inv
  case copyFrom f p s c => exact (I.copyFrom_st (X := anyCache) f p s _ (I.cacheOf c) (by simp) (by simp) e).inv
  case equal f a b =>
    obtain ⟨q, e⟩ := Res.bind_snd e
    exact (equal_st (X := anyCache) E f I a b q h' e).inv
  case mergeWith f mf v w => exact (I.mergeWith_st (X := anyCache) E mf f v w e).inv

/-- ... and every history. -/
theorem Inv.calls (E : Env) (cs : List Call) : ∀ {h h' : Heap}, Inv h → runAll E h cs = .ok h' → Inv h' := by
  induction cs with
  | nil => intro h h' I e; cases e; exact I
  | cons c cs ih =>
    intro h h' I e
    rw [runAll, Res.bind_eq_ok] at e
    obtain ⟨h1, e1, e⟩ := e
    exact ih (I.call E c e1) e

end

end Dxs.Heap
