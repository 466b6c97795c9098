import Verif.Load.Into
import Verif.Heap.Prog

/-!
# The loaders called by the user
-/

namespace Dxs.Heap
open MsgPack

/-- The outcome of a loader in memory is the outcome on trees. -/
def Loads (h : Heap) : Res Val → Out (Option Ptr) → Prop
  | .ok v, .ok a h' => ∃ v' F, canon v' = v ∧ MadeO h a h' v' F
  | .err e, .err e' h' => e' = e ∧ Inv h'
  | .panic, .panic => True
  | .loop, .loop => True
  | _, _ => False

theorem Frame.getCache {h : Heap} (I : Inv h) (pick : Option Nat) : Frame h [] (Heap.getCache h pick).2 :=
  ⟨(I.getCache pick).1, getCache_avail I pick, fun _ _ _ hq => getCache_mem I pick hq⟩

theorem MadeO.after {h h1 h2 : Heap} {a : Option Ptr} {v : Val} {F : List Ptr} (f : Frame h [] h1) (m : MadeO h1 a h2 v F) : MadeO h a h2 v F :=
  ⟨m.good, f.trans m.frame (by simp), fun r hr => f.avail r (m.fresh r hr)⟩

theorem Loads.after {h h1 : Heap} (f : Frame h [] h1) {x : Res Val} {y : Out (Option Ptr)} (l : Loads h1 x y) : Loads h x y := by
  match x, y, l with
  | .ok _, .ok _ _, ⟨v', F, hv, m⟩ => exact ⟨v', F, hv, m.after f⟩
  | .err _, .err _ _, l => exact l
  | .panic, .panic, _ => trivial
  | .loop, .loop, _ => trivial

theorem Sim.loads {c : Option CId} {h : Heap} {x : Res (Val × Bytes)} {y : Out (Option Ptr × Bytes)} (s : Sim c h x y) {f : Val × Bytes → Res Val}
    {F : Option Ptr × Bytes → Heap → Out (Option Ptr)}
    (hs : ∀ v b a h' v' G, canon v' = v → MadeO h a h' v' G → Loads h (f (v, b)) (F (a, b) h')) : Loads h (x >>= f) (y.bind F) := by
  match x, y, s with
  | .ok (v, b), .ok (a, b') h', ⟨e, v', G, hv, m, _⟩ => subst e; exact hs v b' a h' v' G hv m
  | .err _, .err _ _, ⟨e, I⟩ => exact ⟨e, I.inv⟩
  | .panic, .panic, _ => trivial
  | .loop, .loop, _ => trivial

/-- `NewValueFromMsgPack` in memory. -/
theorem newValueFromMsgPackH_spec (E : Env) {h : Heap} (I : Inv h) (b : Bytes) (useCache : Bool) (pick : Option Nat) :
    Loads h (newValueFromMsgPack E b) (newValueFromMsgPackH E h b useCache pick) := by
  unfold newValueFromMsgPackH
  cases useCache with
  | false => exact Sim.loads (parseValueH_spec E _ none h b I (by simp)) (fun v b a h' v' G hv m => ⟨v', G, hv, m⟩)
  | true =>
    obtain ⟨I1, hlt⟩ := I.getCache pick
    refine Loads.after (Frame.getCache I pick) ?_
    exact Sim.loads (parseValueH_spec E _ _ _ b I1 (by intro d hd; cases hd; exact hlt)) (fun v b a h' v' G hv m => ⟨v', G, hv, m⟩)

theorem jrootH_spec (E : Env) {c : Option CId} {h : Heap} (I : Inv h) (hc : ∀ d, c = some d → d < h.nextC) (b : Bytes) :
    Loads h (Json.newValueFromJson E b) (jrootH E c h b) := by
  unfold Json.newValueFromJson jrootH
  refine Sim.loads ((jsim E _).value c h _ I hc) ?_
  intro v b a h' v' G hv m
  dsimp only
  split
  · exact ⟨rfl, m.good.inv⟩
  · exact ⟨v', G, hv, m⟩

/-- `NewValueFromJson` in memory. -/
theorem newValueFromJsonH_spec (E : Env) {h : Heap} (I : Inv h) (b : Bytes) (useCache : Bool) (pick : Option Nat) :
    Loads h (Json.newValueFromJson E b) (newValueFromJsonH E h b useCache pick) := by
  unfold newValueFromJsonH
  cases useCache with
  | false => exact jrootH_spec E I (by simp) b
  | true =>
    obtain ⟨I1, hlt⟩ := I.getCache pick
    exact Loads.after (Frame.getCache I pick) (jrootH_spec E I1 (by intro d hd; cases hd; exact hlt) b)

/-! ## Trees without floats, and what is written of the others -/

mutual
/-- No value of type Float in the tree. -/
def noFloat : Val → Bool
  | .float _ => false
  | .obj _ kvs => noFloatM kvs
  | .arr xs => noFloatL xs
  | _ => true
/-- No value of type Float in the members. -/
def noFloatM : List (Bytes × Val) → Bool
  | [] => true
  | (_, v) :: kvs => noFloat v && noFloatM kvs
/-- No value of type Float in the elements. -/
def noFloatL : List Val → Bool
  | [] => true
  | v :: vs => noFloat v && noFloatL vs
end

mutual
theorem canon_noFloat : ∀ v, noFloat (canon v) = noFloat v
  | .float _ => rfl
  | .obj _ kvs => by simp only [canon, noFloat]; exact canonM_noFloat kvs
  | .arr xs => by simp only [canon, noFloat]; exact canonL_noFloat xs
  | .nil => rfl
  | .str _ => rfl
  | .raw _ => rfl
  | .int _ _ => rfl
  | .double _ => rfl
  | .dateTime _ => rfl
  | .bin _ _ => rfl
  | .exbin _ _ => rfl
  | .null => rfl
  | .tru => rfl
  | .fls => rfl
  | .nan => rfl
  | .inf => rfl
theorem canonM_noFloat : ∀ kvs, noFloatM (canonM kvs) = noFloatM kvs
  | [] => rfl
  | (k, v) :: kvs => by simp only [canonM, noFloatM]; rw [canon_noFloat v, canonM_noFloat kvs]
theorem canonL_noFloat : ∀ xs, noFloatL (canonL xs) = noFloatL xs
  | [] => rfl
  | v :: vs => by simp only [canonL, noFloatL]; rw [canon_noFloat v, canonL_noFloat vs]
end

mutual
theorem canon_same : ∀ v, noFloat v = true → canon v = v
  | .float _, h => by simp [noFloat] at h
  | .obj _ kvs, h => by simp only [canon, noFloat] at h ⊢; rw [canonM_same kvs h]
  | .arr xs, h => by simp only [canon, noFloat] at h ⊢; rw [canonL_same xs h]
  | .nil, _ => rfl
  | .str _, _ => rfl
  | .raw _, _ => rfl
  | .int _ _, _ => rfl
  | .double _, _ => rfl
  | .dateTime _, _ => rfl
  | .bin _ _, _ => rfl
  | .exbin _ _, _ => rfl
  | .null, _ => rfl
  | .tru, _ => rfl
  | .fls, _ => rfl
  | .nan, _ => rfl
  | .inf, _ => rfl
theorem canonM_same : ∀ kvs, noFloatM kvs = true → canonM kvs = kvs
  | [], _ => rfl
  | (k, v) :: kvs, h => by
    simp only [canonM, noFloatM, Bool.and_eq_true] at h ⊢
    rw [canon_same v h.1, canonM_same kvs h.2]
theorem canonL_same : ∀ xs, noFloatL xs = true → canonL xs = xs
  | [], _ => rfl
  | v :: vs, h => by
    simp only [canonL, noFloatL, Bool.and_eq_true] at h ⊢
    rw [canon_same v h.1, canonL_same vs h.2]
end

theorem canonM_length (kvs : List (Bytes × Val)) : (canonM kvs).length = kvs.length := by rw [canonM_eq, List.length_map]
theorem canonL_length (xs : List Val) : (canonL xs).length = xs.length := by rw [canonL_eq, List.length_map]

mutual
/-- The MessagePack text does not depend on the unused halves. -/
theorem enc_canon (E : Env) : ∀ v dst, enc E (canon v) dst = enc E v dst
  | .float _, dst => by simp [canon, enc]
  | .obj _ kvs, dst => by simp only [canon, enc, canonM_length]; rw [encM_canon E kvs]
  | .arr xs, dst => by simp only [canon, enc, canonL_length]; rw [encL_canon E xs]
  | .nil, _ => rfl
  | .str _, _ => rfl
  | .raw _, _ => rfl
  | .int _ _, _ => rfl
  | .double _, _ => rfl
  | .dateTime _, _ => rfl
  | .bin _ _, _ => rfl
  | .exbin _ _, _ => rfl
  | .null, _ => rfl
  | .tru, _ => rfl
  | .fls, _ => rfl
  | .nan, _ => rfl
  | .inf, _ => rfl
theorem encM_canon (E : Env) : ∀ kvs dst, encMembers E (canonM kvs) dst = encMembers E kvs dst
  | [], _ => rfl
  | (k, v) :: kvs, dst => by simp only [canonM, encMembers]; rw [enc_canon E v, encM_canon E kvs]
theorem encL_canon (E : Env) : ∀ xs dst, encElems E (canonL xs) dst = encElems E xs dst
  | [], _ => rfl
  | v :: vs, dst => by simp only [canonL, encElems]; rw [enc_canon E v, encL_canon E vs]
end

open Json in
theorem toJsonL_step (E : Env) (st : Style) (d : Bool) (v : Val) (vs : List Val) (h1 : ∀ dst, toJson E st d (canon v) dst = toJson E st d v dst)
    (h2 : ∀ i dst, toJsonL E st d (canonL vs) i dst = toJsonL E st d vs i dst) (i : Nat) (dst : Bytes) :
    toJsonL E st d (canonL (v :: vs)) i dst = toJsonL E st d (v :: vs) i dst := by
  cases v with
  | _ => simp only [canonL, canon] at h1 ⊢; simp only [toJsonL]; simp only [h1, h2]

open Json in
mutual
/-- Nor does the JSON text. -/
theorem toJson_canon (E : Env) (st : Style) (d : Bool) : ∀ v dst, toJson E st d (canon v) dst = toJson E st d v dst
  | .float _, dst => by simp [canon, toJson]
  | .obj _ kvs, dst => by simp only [canon, toJson]; rw [toJsonM_canon E st d _ kvs]
  | .arr xs, dst => by simp only [canon, toJson]; rw [toJsonL_canon E st d xs]
  | .nil, _ => rfl
  | .str _, _ => rfl
  | .raw _, _ => rfl
  | .int _ _, _ => rfl
  | .double _, _ => rfl
  | .dateTime _, _ => rfl
  | .bin _ _, _ => rfl
  | .exbin _ _, _ => rfl
  | .null, _ => rfl
  | .tru, _ => rfl
  | .fls, _ => rfl
  | .nan, _ => rfl
  | .inf, _ => rfl
theorem toJsonM_canon (E : Env) (st : Style) (d : Bool) (ku : Bool) : ∀ kvs i dst, toJsonM E st d ku (canonM kvs) i dst = toJsonM E st d ku kvs i dst
  | [], _, _ => rfl
  | (k, v) :: kvs, i, dst => by
    simp only [canonM, toJsonM]
    simp only [toJson_canon E st d v, toJsonM_canon E st d ku kvs]
theorem toJsonL_canon (E : Env) (st : Style) (d : Bool) : ∀ xs i dst, toJsonL E st d (canonL xs) i dst = toJsonL E st d xs i dst
  | [], _, _ => rfl
  | v :: vs, i, dst => toJsonL_step E st d v vs (toJson_canon E st d v) (toJsonL_canon E st d vs) i dst
end

end Dxs.Heap
