import Verif.Tree.Det
import Verif.Load.Fill

/-!
# Loading into a value that exists, on trees

What `LoadFromMsgPack` and `LoadFromJson` make of a value is a function of the value and the document, also when the value and the
document do not fit together and when the document is refused half way. The functions here are that function; `loadMsgPackH_into` and
`loadJsonH_into` say that the memory behaves like it.
-/

namespace Dxs.Heap
open MsgPack
open Bson (at_)
open Json (skipWB headIs parseKey parseString parseLit isNumCh noNumber foldIs upTo)

/-- What becomes of a value while a document is read into it: the value is there after an error, too. -/
inductive Filled (α : Type) where
  | ok (a : α) (v : Val)
  | err (e : Err) (v : Val)
  | panic
  | loop
deriving DecidableEq

/-- Something that leaves the value alone. -/
def Filled.lift {α : Type} (x : Res α) (v : Val) : Filled α :=
  match x with
  | .ok a => .ok a v
  | .err e => .err e v
  | .panic => .panic
  | .loop => .loop

/-- One after the other. -/
def Filled.bind {α β : Type} (x : Filled α) (f : α → Val → Filled β) : Filled β :=
  match x with
  | .ok a v => f a v
  | .err e v => .err e v
  | .panic => .panic
  | .loop => .loop

/-! ## What is written into the value -/

/-- `fstrvalue = s` (msgpackparse.go:342): seen if the value is a string. -/
def strInto (s : Bytes) : Val → Val
  | .str _ => .str s
  | .raw _ => .raw s
  | v => v

/-- `fbinary = append(fbinary, b...)` (msgpackparse.go:440, 480): seen if the value is a binary. -/
def binInto (b : Bytes) : Val → Val
  | .bin e x => .bin e (x ++ b)
  | .exbin e x => .exbin e (x ++ b)
  | v => v

/-- `SetDouble` (dxvalue.go:987-996): a time stays a time. -/
def dblInto (x : F64) (v : Val) : Val := if v.vt = .dateTime then .dateTime x else .double x

/-- `farr = append(farr, x)` (msgpackparse.go:153, jsonparse.go:368): seen if the value is an array. -/
def pushArr (x : Val) : Val → Val
  | .arr xs => .arr (xs ++ [x])
  | v => v

/-- A member is appended (jsonparse.go:165): seen if the value is an object. -/
def pushKv (k : Bytes) (x : Val) : Val → Val
  | .obj ku kvs => .obj ku (kvs ++ [(k, x)])
  | v => v

/-- The last member is set (jsonparse.go:175, 193): seen if the value is an object. -/
def setKv (k : Bytes) (x : Val) : Val → Val
  | .obj ku kvs => .obj ku (kvs.dropLast ++ [(k, x)])
  | v => v

/-! ## `LoadFromMsgPack` -/

/-- The loop of `parseMsgPackArray2V`, msgpackparse.go:143-155. -/
def elemsT (p : Bytes → Res (Val × Bytes)) : Nat → Val → Bytes → Filled Bytes
  | 0, v, b => .ok b v
  | n + 1, v, b => (Filled.lift (p b) v).bind fun xb v => elemsT p n (pushArr xb.1 v) xb.2

/-- The loop of `parseMsgPackObject2v`, msgpackparse.go:43-64. -/
def membersT (E : Env) (p : Bytes → Res (Val × Bytes)) : Nat → Val → Bytes → Filled Bytes
  | 0, v, b => .ok b v
  | n + 1, v, b =>
    (Filled.lift (readCode b) v).bind fun cb v =>
    (Filled.lift (parseStr cb.1 cb.2) v).bind fun kb v =>
    (Filled.lift (p kb.2) v).bind fun xb v => membersT E p n (putName E v kb.1 xb.1) xb.2

/-- `parseMsgPackArray2V`, msgpackparse.go:137-156: an empty array changes nothing. -/
def array2T (E : Env) (fuel : Nat) (code : UInt8) (v : Val) (b : Bytes) : Filled Bytes :=
  (Filled.lift (parseArrLen code b) v).bind fun nb v =>
  if nb.1 = 0 then .ok nb.2 v else elemsT (parseValue E fuel) nb.1 (.arr []) nb.2

/-- `parseMsgPackObject2v`, msgpackparse.go:28-65: an empty map changes nothing, and an array takes the members as elements. -/
def object2T (E : Env) (fuel : Nat) (code : UInt8) (v : Val) (b : Bytes) : Filled Bytes :=
  (Filled.lift (parseMapLen code b) v).bind fun nb v =>
  if nb.1 = 0 then .ok nb.2 v
  else
    match nb.2 with
    | [] => .panic
    | k :: _ => if !(isStr k) then .err .mapKey v else membersT E (parseValue E fuel) nb.1 v nb.2

/-- The binary branch of `parseMsgPack2Value`, msgpackparse.go:427-444. -/
def bin2T (code : UInt8) (v : Val) (b : Bytes) : Filled Bytes :=
  (Filled.lift (parseLen code b) v).bind fun nb v =>
  if nb.1 ≤ nb.2.length then .ok (nb.2.drop nb.1) (binInto (nb.2.take nb.1) v) else .err (.truncated nb.1 nb.2.length) v

/-- The extension branch of `parseMsgPack2Value`, msgpackparse.go:445-482. -/
def ext2T (E : Env) (code : UInt8) (v : Val) (b : Bytes) : Filled Bytes :=
  (Filled.lift (parseExtLen code b) v).bind fun nb v =>
  if nb.2.length < nb.1 then .err (.truncated nb.1 nb.2.length) v
  else
    (Filled.lift (sliceFrom (nb.1 + 1) nb.2) v).bind fun tail v =>
    match nb.2 with
    | [] => .panic
    | ty :: _ =>
      if isTime code ty then (Filled.lift (parseTime E code nb.2) v).bind fun x v => .ok tail (dblInto x v)
      else .ok tail (binInto (nb.2.take (nb.1 + 1)) v)

/-- `parseMsgPack2Value`, msgpackparse.go:330-485. -/
def parse2T (E : Env) (fuel : Nat) (v : Val) (b : Bytes) : Filled Bytes :=
  (Filled.lift (readCode b) v).bind fun cb v =>
  let code := cb.1
  let b := cb.2
  let num (x : Res (Nat × Bytes)) (f : Nat → BitVec 64) : Filled Bytes := (Filled.lift x v).bind fun ub v => .ok ub.2 (intInto (f ub.1) v)
  if isStr code then (Filled.lift (parseStr code b) v).bind fun sb v => .ok [] (strInto sb.1 v)
  else if isArray code then array2T E fuel code v b
  else if isMap code then object2T E fuel code v b
  else if isFixedNum code then .ok b (intInto (sx8 code.toNat) v)
  else if code == 0xcc then num (parseUint8 b) (BitVec.ofNat 64)
  else if code == 0xd0 then num (parseUint8 b) sx8
  else if code == 0xcd then num (parseUint16 b) (BitVec.ofNat 64)
  else if code == 0xd1 then num (parseUint16 b) sx16
  else if code == 0xce then num (parseUint32 b) (BitVec.ofNat 64)
  else if code == 0xd2 then num (parseUint32 b) sx32
  else if code == 0xd3 || code == 0xcf then num (parseUint64 b) (BitVec.ofNat 64)
  else if code == 0xca then (Filled.lift (parseUint32 b) v).bind fun ub _ => .ok ub.2 (.float (setLo32 0 (BitVec.ofNat 32 ub.1)))
  else if code == 0xcb then (Filled.lift (parseUint64 b) v).bind fun ub v => .ok ub.2 (dblInto (BitVec.ofNat 64 ub.1) v)
  else if code == 0xc3 then .ok b .tru
  else if code == 0xc2 then .ok b .fls
  else if code == 0xc0 then .ok b .null
  else if isBin code then bin2T code v b
  else if isExt code then ext2T E code v b
  else .ok [] v

/-- `LoadFromMsgPack`, dxvalue.go:259-266. -/
def loadMsgPackT (E : Env) (v : Val) (b : Bytes) : Filled Unit :=
  let v := clearVal v
  if b.length = 0 then .ok () v
  else (parse2T E b.length v b).bind fun _ v => .ok () v

/-! ## `LoadFromJson` -/

/-- The loop of `parseJsonObj2V`, jsonparse.go:164-220. -/
def jobj2T (E : Env) : Nat → Val → Bytes → Filled Bytes
  | 0, _, _ => .loop
  | fuel + 1, v, oldb =>
    let v := pushKv [] .nil v
    let b := (skipWB oldb).1
    (Filled.lift (headIs b 34) v).bind fun start v =>
    if !start then .err (.json .noKeyStart (skipWB oldb).2 oldb) v
    else
      (Filled.lift (sliceFrom 1 b) v).bind fun b v =>
      (Filled.lift (parseKey b) v).bind fun kb v =>
      let v := setKv kb.1 .nil v
      let b := (skipWB kb.2).1
      (Filled.lift (headIs b 58) v).bind fun colon v =>
      if !colon then .err (.json .noKVSplit (skipWB kb.2).2 kb.2) v
      else
        (Filled.lift (sliceFrom 1 b) v).bind fun b v =>
        (Filled.lift (Json.parseValue E fuel (skipWB b).1) v).bind fun xb v =>
        let b := (skipWB xb.2).1
        let v := setKv kb.1 xb.1 v
        if b.length = 0 then .err (.json .noObjBack (skipWB xb.2).2 xb.2) v
        else
          (Filled.lift (at_ b 0) v).bind fun x v =>
          if x == 44 then (Filled.lift (sliceFrom 1 b) v).bind fun b v => jobj2T E fuel v b
          else if x == 125 then (Filled.lift (sliceFrom 1 b) v).bind fun b v => .ok b v
          else .err (.json .noValueSplit (skipWB xb.2).2 xb.2) v

/-- The loop of `parseJsonArray2V`, jsonparse.go:361-394. -/
def jarr2T (E : Env) : Nat → Val → Bytes → Filled Bytes
  | 0, _, _ => .loop
  | fuel + 1, v, oldb =>
    (Filled.lift (Json.parseValue E fuel (skipWB oldb).1) v).bind fun xb v =>
    let b := (skipWB xb.2).1
    let v := pushArr xb.1 v
    if b.length = 0 then .err (.json .noArrBack (skipWB xb.2).2 xb.2) v
    else
      (Filled.lift (at_ b 0) v).bind fun x v =>
      if x == 44 then (Filled.lift (sliceFrom 1 b) v).bind fun b v => jarr2T E fuel v b
      else if x == 93 then (Filled.lift (sliceFrom 1 b) v).bind fun b v => .ok b v
      else .err (.json .noValueSplit (skipWB xb.2).2 xb.2) v

/-- The loop of `parseJsonNum2V`, jsonparse.go:547-583: a number at the end of the text sets nothing, one with a point goes
through `StrToIntDef` like the others. -/
def jnum2T (E : Env) (v : Val) (b : Bytes) : Nat → Bytes → Filled Bytes
  | _, [] => .ok [] v
  | i, ch :: r =>
    if isNumCh ch then jnum2T E v b (i + 1) r
    else
      (Filled.lift (noNumber b i) v).bind fun word v =>
      if word then
        (Filled.lift (sliceFrom i b) v).bind fun t v =>
        if t.length ≥ 3 then
          (Filled.lift (upTo 3 t) v).bind fun xs v =>
          if foldIs xs [105, 110, 102] then (Filled.lift (sliceFrom (i + 3) b) v).bind fun tail _ => .ok tail .inf
          else if foldIs xs [110, 97, 110] then (Filled.lift (sliceFrom (i + 3) b) v).bind fun tail _ => .ok tail .nan
          else .err .jsonInvalid v
        else .err .jsonInvalid v
      else
        (Filled.lift (upTo i b) v).bind fun ns v =>
        (Filled.lift (sliceFrom i b) v).bind fun tail v =>
        if ch == 46 then .ok tail (.float (setLo32 0 (E.f64to32 ((E.strToFloat ns).getD 0))))
        else .ok tail (intInto ((E.strToInt ns).getD 0) v)

/-- `parseJson2Value`, jsonparse.go:490-545. -/
def json2T (E : Env) (fuel : Nat) (v : Val) (b : Bytes) : Filled Bytes :=
  if b.length = 0 then .err (.json .noObjBack 0 b) v
  else
    (Filled.lift (at_ b 0) v).bind fun b0 v =>
    if b0 == 123 then
      (Filled.lift (sliceFrom 1 b) v).bind fun oldb v =>
      let b := (skipWB oldb).1
      if b.length = 0 then .err (.json .noObjBack (skipWB oldb).2 oldb) v
      else
        (Filled.lift (at_ b 0) v).bind fun b0 v =>
        if b0 == 125 then (Filled.lift (sliceFrom 1 b) v).bind fun t v => .ok t v
        else jobj2T E fuel v b
    else if b0 == 91 then
      (Filled.lift (sliceFrom 1 b) v).bind fun oldb v =>
      let b := (skipWB oldb).1
      if b.length = 0 then .err (.json .noArrBack (skipWB oldb).2 oldb) v
      else
        (Filled.lift (at_ b 0) v).bind fun b0 v =>
        if b0 == 93 then (Filled.lift (sliceFrom 1 b) v).bind fun t v => .ok t v
        else jarr2T E fuel v b
    else if b0 == 34 then
      (Filled.lift (sliceFrom 1 b) v).bind fun b v =>
      (Filled.lift (parseString b) v).bind fun st _ =>
      match E.jsonTime st.1 with
      | none => .ok st.2 (.raw st.1)
      | some d => .ok st.2 (.dateTime d)
    else if b0 == 116 || b0 == 102 || b0 == 110 then (Filled.lift (parseLit E b0 b) v).bind fun vt _ => .ok vt.2 (blankVal (litType vt.1) 0)
    else jnum2T E v b 0 b

/-- `LoadFromJson`, dxvalue.go:268-276. -/
def loadJsonT (E : Env) (v : Val) (b : Bytes) : Filled Unit :=
  let v := clearVal v
  let b := (skipWB b).1
  if b.length = 0 then .ok () v
  else (json2T E (3 * b.length + 1) v b).bind fun _ v => .ok () v

/-! ## The memory behaves like that -/

section
variable {h : Heap} {p : Ptr} {v w : Val} {F : List Ptr}

/-- A write that does not touch what is seen of the value. -/
theorem write_hid (g : Good h (some p) v F) (h5 : 5 ≤ p) {n : Node} (hd : n.dt = (h.mem p).dt) (ho : n.owner = (h.mem p).owner) (hu : n.ku = (h.mem p).ku)
    (hk : n.dt = .object → n.kvs = (h.mem p).kvs) (ha : n.dt = .array → n.arr = (h.mem p).arr) (hl : n.dt ≠ .object → n.dt ≠ .array → leafOf n = leafOf (h.mem p)) :
    ∃ F', Upd h F (h.set p n) (some p) v F' := by
  have hdt := rep_dt g.rep
  by_cases e1 : (h.mem p).dt = .object
  · obtain ⟨ku, kvs, rfl⟩ := vt_obj (hdt.symm.trans e1) (rep_ne_nil g.rep)
    obtain ⟨F0, rfl, -, -, hku, hm, hp0, hn0, -⟩ := g.obj_inv
    have u := (obj_write (X := []) g (n := n) (hd.trans e1) ho (by rw [hk (hd.trans e1)]; exact hm) hn0 (fun q hq => Or.inl ⟨by simp [hq], by rintro rfl; exact hp0 hq⟩) (by simp))
    rw [hu, hku] at u
    exact ⟨_, u⟩
  · by_cases e2 : (h.mem p).dt = .array
    · obtain ⟨xs, rfl⟩ := vt_arr (hdt.symm.trans e2) (rep_ne_nil g.rep)
      obtain ⟨F0, rfl, -, -, hm, hp0, hn0, -⟩ := g.arr_inv
      exact ⟨_, arr_write (X := []) g (n := n) (hd.trans e2) ho (by rw [ha (hd.trans e2)]; exact hm) hn0 (fun q hq => Or.inl ⟨by simp [hq], by rintro rfl; exact hp0 hq⟩) (by simp)⟩
    · have hv : leafOf (h.mem p) = some v := by
        have hr := g.rep
        cases v with
        | nil => exact absurd rfl (rep_ne_nil hr)
        | obj ku kvs => exact absurd hdt e1
        | arr xs => exact absurd hdt e2
        | _ =>
          obtain ⟨q, hq, -, hl⟩ := hr
          cases hq
          rw [view_ge h5] at hl
          exact hl
      exact ⟨_, write_leaf g rfl h5 ho (by rw [hl (by rw [hd]; exact e1) (by rw [hd]; exact e2)]; exact hv)⟩

end
/-- The memory does what happens to the tree, up to the unused bits of a Float. After an error there may be garbage besides. -/
def Into {α : Type} (c : Option CId) (h : Heap) (r : Ptr) (R : List Ptr) : Filled α → Out α → Prop
  | .ok a v, .ok a' h' => a' = a ∧ ∃ v' R', canon v' = canon v ∧ Upd h R h' (some r) v' R' ∧ Run c h h'
  | .err e v, .err e' h' => e' = e ∧ (Own h → ∃ h1 v' R', canon v' = canon v ∧ Upd h R h1 (some r) v' R' ∧ Run c h h1 ∧ Failed c h1 h')
  | .panic, .panic => True
  | .loop, .loop => True
  | _, _ => False

section
variable {α β : Type} {c : Option CId} {h : Heap} {r : Ptr} {R : List Ptr} {w v : Val}

theorem Into.same (g : Good h (some r) w R) (hv : canon w = canon v) (a : α) : Into c h r R (.ok a v) (.ok a h) :=
  ⟨rfl, w, R, hv, g.upd_refl, Run.refl g.inv⟩

theorem Into.err (g : Good h (some r) w R) (hv : canon w = canon v) (e : Err) : Into c h r R (.err e v : Filled α) (.err e h) :=
  ⟨rfl, fun _ => ⟨h, w, R, hv, g.upd_refl, Run.refl g.inv, Or.inl ⟨Frame.refl g.inv _, Run.refl g.inv⟩⟩⟩

theorem Into.lift (g : Good h (some r) w R) (hv : canon w = canon v) {x : Res α} {f : α → Val → Filled β} {k : α → Heap → Out β}
    (hf : ∀ a, Into c h r R (f a v) (k a h)) : Into c h r R ((Filled.lift x v).bind f) ((Out.lift x h).bind k) := by
  cases x with
  | ok a => exact hf a
  | err e => exact Into.err g hv e
  | panic => trivial
  | loop => trivial

theorem Into.ite {P : Prop} [Decidable P] {x x' : Filled α} {y y' : Out α} (a : P → Into c h r R x y) (b : ¬P → Into c h r R x' y') :
    Into c h r R (if P then x else x') (if P then y else y') := by
  split
  · exact a ‹_›
  · exact b ‹_›

/-- The first part has been done. -/
theorem Into.after {h1 : Heap} {R1 : List Ptr} {v1 : Val} (u : Upd h R h1 (some r) v1 R1) (s : Run c h h1) {x : Filled α} {y : Out α} (l : Into c h1 r R1 x y) :
    Into c h r R x y := by
  match x, y, l with
  | .ok _ _, .ok _ _, ⟨e, v', R', hv, u', s'⟩ => exact ⟨e, v', R', hv, UpdX.trans u u', s.trans s'⟩
  | .err _ _, .err _ _, ⟨e, l⟩ =>
    refine ⟨e, fun O => ?_⟩
    obtain ⟨h2, v', R', hv, u', s', f⟩ := l (s.step.own O)
    exact ⟨h2, v', R', hv, UpdX.trans u u', s.trans s', f⟩
  | .panic, .panic, _ => trivial
  | .loop, .loop, _ => trivial

/-- The value was written to. -/
theorem Into.wrote {h1 : Heap} {R1 : List Ptr} {v1 : Val} (u : Upd h R h1 (some r) v1 R1) (s : Run c h h1) (hv : canon v1 = canon v) (a : α) :
    Into c h r R (.ok a v) (.ok a h1) := Into.after u s (Into.same u.good hv a)

/-- A part is parsed. -/
theorem Into.value (g : Good h (some r) w R) (hv : canon w = canon v) {x : Res (Val × Bytes)} {y : Out (Option Ptr × Bytes)} (l : Sim c h x y)
    {f : Val × Bytes → Val → Filled β} {k : Option Ptr × Bytes → Heap → Out β}
    (hf : ∀ z b a h' z' G, canon z' = canon z → MadeO h a h' z' G → Run c h h' → Into c h r R (f (z, b) v) (k (a, b) h')) :
    Into c h r R ((Filled.lift x v).bind f) (y.bind k) := by
  match x, y, l with
  | .ok (z, b), .ok (a, b') h', ⟨e, z', G, hz, m, s⟩ => subst e; exact hf z b' a h' z' G (by rw [← hz, canon_idem]) m s
  | .err _, .err _ _, ⟨e, ok⟩ => exact ⟨e, fun O => ⟨h, w, R, hv, g.upd_refl, Run.refl g.inv, ok.failed O⟩⟩
  | .panic, .panic, _ => trivial
  | .loop, .loop, _ => trivial

/-- The result is not looked at. -/
theorem Into.unit {x : Filled α} {y : Out α} (l : Into c h r R x y) (b : β) : Into c h r R (x.bind fun _ v => .ok b v) (y.bind fun _ h => .ok b h) := by
  match x, y, l with
  | .ok _ _, .ok _ _, ⟨_, l⟩ => exact ⟨rfl, l⟩
  | .err _ _, .err _ _, l => exact l
  | .panic, .panic, _ => trivial
  | .loop, .loop, _ => trivial

/-- A part that was made is stored. -/
theorem Into.put (g : Good h (some r) w R) {h' h2 : Heap} {a : Option Ptr} {z : Val} {G : List Ptr} (m : MadeO h a h' z G) (s : Run c h h') {w2 : Val}
    (hu : Good h' (some r) w R → (∀ q ∈ G, q ∉ R) → ∃ R2, UpdX G h' R h2 (some r) w2 R2) (s2 : Run c h' h2) :
    ∃ R2, Upd h R h2 (some r) w2 R2 ∧ Run c h h2 := by
  have u1 := g.upd_frame m.frame
  obtain ⟨R2, u2⟩ := hu u1.good (fun x hx hR => g.live x hR (m.fresh x hx))
  exact ⟨R2, (UpdX.trans u1 u2).absorb m.fresh, s.trans s2⟩

end

/-! ### The writes -/

section
variable {h : Heap} {p : Ptr} {v : Val} {F : List Ptr}

theorem leaf_at (g : Good h (some p) v F) (h5 : 5 ≤ p) (h1 : v.vt ≠ .object) (h2 : v.vt ≠ .array) : leafOf (h.mem p) = some v := by
  have hr := g.rep
  cases v with
  | nil => exact absurd rfl (rep_ne_nil hr)
  | obj ku kvs => exact absurd rfl h1
  | arr xs => exact absurd rfl h2
  | _ =>
    obtain ⟨q, hq, -, hl⟩ := hr
    cases hq
    rw [view_ge h5] at hl
    exact hl

theorem pushArr_upd (g : Good h (some p) v F) (h5 : 5 ≤ p) {b : Option Ptr} {w : Val} {G : List Ptr} (gw : Good h b w G) (hd : ∀ q ∈ G, q ∉ F) :
    ∃ F', UpdX G h F (h.upd p (fun n => { n with arr := n.arr ++ [b] })) (some p) (pushArr w v) F' := by
  have hdt := rep_dt g.rep
  by_cases e : (h.mem p).dt = .array
  · obtain ⟨xs, rfl⟩ := vt_arr (hdt.symm.trans e) (rep_ne_nil g.rep)
    exact arr_snoc g gw hd
  · obtain ⟨F', u⟩ := write_hid g h5 (n := { h.mem p with arr := (h.mem p).arr ++ [b] }) rfl rfl rfl (fun _ => rfl) (fun h => absurd h e) (fun _ _ => rfl)
    have : pushArr w v = v := by cases v <;> first | rfl | exact absurd hdt e
    rw [this]
    exact ⟨F', u.mono (by simp)⟩

theorem pushKv_upd (g : Good h (some p) v F) (h5 : 5 ≤ p) (k : Bytes) {b : Option Ptr} {w : Val} {G : List Ptr} (gw : Good h b w G) (hd : ∀ q ∈ G, q ∉ F) :
    ∃ F', UpdX G h F (h.upd p (fun n => { n with kvs := n.kvs ++ [(k, b)] })) (some p) (pushKv k w v) F' := by
  have hdt := rep_dt g.rep
  by_cases e : (h.mem p).dt = .object
  · obtain ⟨ku, kvs, rfl⟩ := vt_obj (hdt.symm.trans e) (rep_ne_nil g.rep)
    exact obj_snoc g gw hd k
  · obtain ⟨F', u⟩ := write_hid g h5 (n := { h.mem p with kvs := (h.mem p).kvs ++ [(k, b)] }) rfl rfl rfl (fun h => absurd h e) (fun _ => rfl) (fun _ _ => rfl)
    have : pushKv k w v = v := by cases v <;> first | rfl | exact absurd hdt e
    rw [this]
    exact ⟨F', u.mono (by simp)⟩

theorem setKv_upd (g : Good h (some p) v F) (h5 : 5 ≤ p) (k : Bytes) {b : Option Ptr} {w : Val} {G : List Ptr} (gw : Good h b w G) (hd : ∀ q ∈ G, q ∉ F) :
    ∃ F', UpdX G h F (h.upd p (fun n => { n with kvs := setLast n.kvs (k, b) })) (some p) (setKv k w v) F' := by
  have hdt := rep_dt g.rep
  by_cases e : (h.mem p).dt = .object
  · obtain ⟨ku, kvs, rfl⟩ := vt_obj (hdt.symm.trans e) (rep_ne_nil g.rep)
    exact obj_last g gw hd k
  · obtain ⟨F', u⟩ := write_hid g h5 (n := { h.mem p with kvs := setLast (h.mem p).kvs (k, b) }) rfl rfl rfl (fun h => absurd h e) (fun _ => rfl) (fun _ _ => rfl)
    have : setKv k w v = v := by cases v <;> first | rfl | exact absurd hdt e
    rw [this]
    exact ⟨F', u.mono (by simp)⟩

theorem strInto_upd (g : Good h (some p) v F) (h5 : 5 ≤ p) (s : Bytes) : ∃ F', Upd h F (h.upd p (fun n => { n with str := s })) (some p) (strInto s v) F' := by
  have hdt := rep_dt g.rep
  by_cases hs : v.vt = .string ∨ v.vt = .rawString
  · have hl : leafOf { h.mem p with str := s } = some (strInto s v) := by
      cases v <;> simp [Val.vt] at hs hdt <;> simp [leafOf, hdt, strInto]
    exact ⟨[p], write_leaf g rfl h5 rfl hl⟩
  · have : strInto s v = v := by cases v <;> first | rfl | simp [Val.vt] at hs
    rw [this]
    refine write_hid g h5 rfl rfl rfl (fun _ => rfl) (fun _ => rfl) (fun h1 h2 => ?_)
    rw [← hdt] at hs
    generalize h.mem p = n at *
    cases n with | mk dt => cases dt <;> simp_all [leafOf]

theorem binInto_upd (g : Good h (some p) v F) (h5 : 5 ≤ p) (b : Bytes) : ∃ F', Upd h F (h.upd p (fun n => { n with bin := n.bin ++ b })) (some p) (binInto b v) F' := by
  have hdt := rep_dt g.rep
  by_cases hs : v.vt = .binary ∨ v.vt = .exBinary
  · have hl : leafOf { h.mem p with bin := (h.mem p).bin ++ b } = some (binInto b v) := by
      have hv := leaf_at g h5 (by rcases hs with h | h <;> rw [h] <;> decide) (by rcases hs with h | h <;> rw [h] <;> decide)
      cases v <;> simp [Val.vt] at hs hdt <;> simp [leafOf, hdt] at hv <;> simp [leafOf, hdt, binInto, hv]
    exact ⟨[p], write_leaf g rfl h5 rfl hl⟩
  · have : binInto b v = v := by cases v <;> first | rfl | simp [Val.vt] at hs
    rw [this]
    refine write_hid g h5 rfl rfl rfl (fun _ => rfl) (fun _ => rfl) (fun h1 h2 => ?_)
    rw [← hdt] at hs
    generalize h.mem p = n at *
    cases n with | mk dt => cases dt <;> simp_all [leafOf]

end

/-! ### They do not depend on what is not seen -/

section
variable {v w z z' : Val}

theorem pushArr_like (hv : canon w = canon v) (hz : canon z' = canon z) : canon (pushArr z' w) = canon (pushArr z v) := by
  have key : ∀ x y, canon (pushArr x y) = pushArr (canon x) (canon y) := by intro x y; cases y <;> simp [pushArr, canon, canonL_append, canonL]
  rw [key, key, hv, hz]

theorem pushKv_like (k : Bytes) (hv : canon w = canon v) (hz : canon z' = canon z) : canon (pushKv k z' w) = canon (pushKv k z v) := by
  have key : ∀ x y, canon (pushKv k x y) = pushKv k (canon x) (canon y) := by intro x y; cases y <;> simp [pushKv, canon, canonM_append, canonM]
  rw [key, key, hv, hz]

theorem setKv_like (k : Bytes) (hv : canon w = canon v) (hz : canon z' = canon z) : canon (setKv k z' w) = canon (setKv k z v) := by
  have key : ∀ x y, canon (setKv k x y) = setKv k (canon x) (canon y) := by
    intro x y; cases y <;> simp [setKv, canon, canonM_append, canonM]
    rw [canonM_eq, canonM_eq, List.map_dropLast]
  rw [key, key, hv, hz]

theorem strInto_like (s : Bytes) (hv : canon w = canon v) : canon (strInto s w) = canon (strInto s v) := by
  have key : ∀ y, canon (strInto s y) = strInto s (canon y) := by intro y; cases y <;> rfl
  rw [key, key, hv]

theorem binInto_like (s : Bytes) (hv : canon w = canon v) : canon (binInto s w) = canon (binInto s v) := by
  have key : ∀ y, canon (binInto s y) = binInto s (canon y) := by intro y; cases y <;> rfl
  rw [key, key, hv]

theorem dblInto_like (x : F64) (hv : canon w = canon v) : canon (dblInto x w) = canon (dblInto x v) := by
  unfold dblInto
  rw [← canon_vt w, ← canon_vt v, hv]

theorem intInto_like (x : BitVec 64) (hv : canon w = canon v) : canon (intInto x w) = canon (intInto x v) := by
  rw [canon_intInto, canon_intInto, hv]

theorem putName_like (E : Env) (k : Bytes) (hv : canon w = canon v) (hz : canon z' = canon z) : canon (putName E w k z') = canon (putName E v k z) := by
  rw [canon_putName, canon_putName, hv, hz]

end

/-! ### MessagePack -/

theorem elemsH_into {c : Option CId} {n0 : Nat} {p : Bytes → Res (Val × Bytes)} {P : Heap → Bytes → Out (Option Ptr × Bytes)} (hP : PartSim c n0 p P) (r : Ptr)
    (h5 : 5 ≤ r) : ∀ (n : Nat) (h : Heap) (b : Bytes) (R : List Ptr) (w v : Val), n0 ≤ h.nextC → Good h (some r) w R → canon w = canon v →
      Into c h r R (elemsT p n v b) (elemsH P r n h b)
  | 0, h, b, R, w, v, hn, g, hv => Into.same g hv b
  | n + 1, h, b, R, w, v, hn, g, hv => by
    rw [elemsH, elemsT]
    refine Into.value g hv (hP h b g.inv hn) ?_
    intro z b a h' z' G hz m s
    obtain ⟨R2, u, s2⟩ := Into.put g m s (fun g' hd => pushArr_upd g' h5 m.good hd)
      (Run.upd s.step.inv r (fun m => { m with arr := m.arr ++ [a] }) (fun h => by omega) rfl)
    exact Into.after u s2 (elemsH_into hP r h5 n _ b R2 _ _ (Nat.le_trans hn s2.step.nextC) u.good (pushArr_like hv hz))

theorem membersH_into (E : Env) {c : Option CId} {n0 : Nat} {p : Bytes → Res (Val × Bytes)} {P : Heap → Bytes → Out (Option Ptr × Bytes)} (hP : PartSim c n0 p P)
    (r : Ptr) (h5 : 5 ≤ r) : ∀ (n : Nat) (h : Heap) (b : Bytes) (R : List Ptr) (w v : Val), n0 ≤ h.nextC → Good h (some r) w R → canon w = canon v →
      Into c h r R (membersT E p n v b) (membersH E P r n h b)
  | 0, h, b, R, w, v, hn, g, hv => Into.same g hv b
  | n + 1, h, b, R, w, v, hn, g, hv => by
    rw [membersH, membersT]
    refine Into.lift g hv fun cb => Into.lift g hv fun kb => Into.value g hv (hP h kb.2 g.inv hn) ?_
    intro z b a h' z' G hz m s
    obtain ⟨R2, u, s2⟩ := Into.put g m s (fun g' hd => setKeyValue_exact E g' h5 kb.1 m.good hd) (Run.setKeyValue s.step.inv E r kb.1 a)
    exact Into.after u s2 (membersH_into E hP r h5 n _ b R2 _ _ (Nat.le_trans hn s2.step.nextC) u.good (putName_like E kb.1 hv hz))

section
variable {h : Heap} {p : Ptr} {w v : Val} {R : List Ptr} {c : Option CId} {α : Type}

theorem Into.setInt (g : Good h (some p) w R) (hv : canon w = canon v) (h5 : 5 ≤ p) (x : BitVec 64) (a : α) :
    Into c h p R (.ok a (intInto x v)) (.ok a (Heap.setInt h p x)) :=
  Into.wrote (setInt_exact g h5 x) (Run.setInt g.inv p x) (intInto_like x hv) a

theorem Into.setDouble (g : Good h (some p) w R) (hv : canon w = canon v) (h5 : 5 ≤ p) (x : F64) (a : α) :
    Into c h p R (.ok a (dblInto x v)) (.ok a (Heap.setDouble h p x)) :=
  Into.wrote (setDouble_upd g h5 x) (Run.setDouble g.inv p x) (dblInto_like x hv) a

theorem Into.setFloat (g : Good h (some p) w R) (h5 : 5 ≤ p) (x : F32) (a : α) :
    Into c h p R (.ok a (.float (setLo32 0 x))) (.ok a (Heap.setFloat h p x)) := by
  obtain ⟨cell, u⟩ := setFloat_upd g h5 x
  refine Into.wrote u (Run.setFloat g.inv p x) ?_ a
  rw [canon_float_set, canon_float_set]

theorem Into.reset (g : Good h (some p) w R) (h5 : 5 ≤ p) {t : VT} {z : Val} (hz : ∀ cell, canon (blankVal t cell) = canon z) (a : α) :
    Into c h p R (.ok a z) (.ok a (Heap.reset h p t)) :=
  Into.wrote (reset_upd g h5 t) (Run.reset g.inv p t) (hz _) a

theorem Into.str (g : Good h (some p) w R) (hv : canon w = canon v) (h5 : 5 ≤ p) (s : Bytes) (a : α) :
    Into c h p R (.ok a (strInto s v)) (.ok a (h.upd p (fun n => { n with str := s }))) := by
  obtain ⟨F', u⟩ := strInto_upd g h5 s
  exact Into.wrote u (Run.upd g.inv p _ (fun _ => rfl) rfl) (strInto_like s hv) a

theorem Into.bin (g : Good h (some p) w R) (hv : canon w = canon v) (h5 : 5 ≤ p) (b : Bytes) (a : α) :
    Into c h p R (.ok a (binInto b v)) (.ok a (h.upd p (fun n => { n with bin := n.bin ++ b }))) := by
  obtain ⟨F', u⟩ := binInto_upd g h5 b
  exact Into.wrote u (Run.upd g.inv p _ (fun _ => rfl) rfl) (binInto_like b hv) a

theorem array2H_into (E : Env) (fuel : Nat) (code : UInt8) (g : Good h (some p) w R) (hv : canon w = canon v) (h5 : 5 ≤ p) (b : Bytes) :
    Into (h.mem p).owner h p R (array2T E fuel code v b) (array2H E fuel p code h b) := by
  unfold array2H array2T
  refine Into.lift g hv fun nb => Into.ite (fun _ => Into.same g hv _) (fun _ => ?_)
  have u := reset_upd g h5 .array
  refine Into.after u (Run.reset g.inv p .array) ?_
  refine elemsH_into (part_sim E fuel (fun d hd => ?_)) p h5 _ _ _ _ _ _ (Nat.le_refl _) u.good rfl
  rw [(Same.reset h p .array).nextC]; exact g.inv.owner p d hd

theorem object2H_into (E : Env) (fuel : Nat) (code : UInt8) (g : Good h (some p) w R) (hv : canon w = canon v) (h5 : 5 ≤ p) (b : Bytes) :
    Into (h.mem p).owner h p R (object2T E fuel code v b) (object2H E fuel p code h b) := by
  unfold object2H object2T
  refine Into.lift g hv fun nb => Into.ite (fun _ => Into.same g hv _) (fun _ => ?_)
  rcases nb with ⟨n, _ | ⟨k, t⟩⟩
  · trivial
  · exact Into.ite (fun _ => Into.err g hv _) (fun _ => membersH_into E (part_sim E fuel (fun d hd => g.inv.owner p d hd)) p h5 _ _ _ _ _ _ (Nat.le_refl _) g hv)

theorem bin2H_into (code : UInt8) (g : Good h (some p) w R) (hv : canon w = canon v) (h5 : 5 ≤ p) (b : Bytes) :
    Into c h p R (bin2T code v b) (bin2H p code h b) := by
  unfold bin2H bin2T
  exact Into.lift g hv fun nb => Into.ite (fun _ => Into.bin g hv h5 _ _) (fun _ => Into.err g hv _)

theorem ext2H_into (E : Env) (code : UInt8) (g : Good h (some p) w R) (hv : canon w = canon v) (h5 : 5 ≤ p) (b : Bytes) :
    Into c h p R (ext2T E code v b) (ext2H E p code h b) := by
  unfold ext2H ext2T
  refine Into.lift g hv fun nb => Into.ite (fun _ => Into.err g hv _) (fun _ => Into.lift g hv fun tail => ?_)
  rcases nb with ⟨n, _ | ⟨ty, t⟩⟩
  · trivial
  · exact Into.ite (fun _ => Into.lift g hv fun x => Into.setDouble g hv h5 x _) (fun _ => Into.bin g hv h5 _ _)

theorem parse2H_into (E : Env) (fuel : Nat) (g : Good h (some p) w R) (hv : canon w = canon v) (h5 : 5 ≤ p) (b : Bytes) :
    Into (h.mem p).owner h p R (parse2T E fuel v b) (parse2H E fuel p h b) := by
  unfold parse2H parse2T
  have num : ∀ (x : Res (Nat × Bytes)) (f : Nat → BitVec 64), Into (h.mem p).owner h p R ((Filled.lift x v).bind fun ub v => .ok ub.2 (intInto (f ub.1) v))
      ((Out.lift x h).bind fun ub h => .ok ub.2 (setInt h p (f ub.1))) :=
    fun x f => Into.lift g hv fun ub => Into.setInt g hv h5 _ _
  refine Into.lift g hv fun cb => ?_
  dsimp only
  refine Into.ite (fun _ => Into.lift g hv fun sb => Into.str g hv h5 _ _) (fun _ => ?_)
  refine Into.ite (fun _ => array2H_into E fuel _ g hv h5 _) (fun _ => ?_)
  refine Into.ite (fun _ => object2H_into E fuel _ g hv h5 _) (fun _ => ?_)
  refine Into.ite (fun _ => Into.setInt g hv h5 _ _) (fun _ => ?_)
  iterate 7 refine Into.ite (fun _ => num _ _) (fun _ => ?_)
  refine Into.ite (fun _ => Into.lift g hv fun ub => Into.setFloat g h5 _ _) (fun _ => ?_)
  refine Into.ite (fun _ => Into.lift g hv fun ub => Into.setDouble g hv h5 _ _) (fun _ => ?_)
  refine Into.ite (fun _ => Into.reset g h5 (fun _ => rfl) _) (fun _ => ?_)
  refine Into.ite (fun _ => Into.reset g h5 (fun _ => rfl) _) (fun _ => ?_)
  refine Into.ite (fun _ => Into.reset g h5 (fun _ => rfl) _) (fun _ => ?_)
  refine Into.ite (fun _ => bin2H_into _ g hv h5 _) (fun _ => ?_)
  exact Into.ite (fun _ => ext2H_into E _ g hv h5 _) (fun _ => Into.same g hv _)

/-- `LoadFromMsgPack` after the value has been cleared. -/
theorem loadMsgPackH_into (E : Env) (g : Good (Heap.clear h p) (some p) w R) (hv : canon w = canon (clearVal v)) (h5 : 5 ≤ p) (b : Bytes) :
    Into ((Heap.clear h p).mem p).owner (Heap.clear h p) p R (loadMsgPackT E v b) (loadMsgPackH E h p b) := by
  unfold loadMsgPackH loadMsgPackT
  exact Into.ite (fun _ => Into.same g hv _) (fun _ => Into.unit (parse2H_into E _ g hv h5 b) _)

end

/-! ### JSON -/

theorem jobj2LoopH_into (E : Env) (r : Ptr) (h5 : 5 ≤ r) (c : Option CId) : ∀ (fuel : Nat) (h : Heap) (b : Bytes) (R : List Ptr) (w v : Val),
    (∀ d, c = some d → d < h.nextC) → Good h (some r) w R → canon w = canon v → Into c h r R (jobj2T E fuel v b) (jobj2LoopH E c r fuel h b)
  | 0, _, _, _, _, _, _, _, _ => trivial
  | fuel + 1, h, b, R, w, v, hc, g, hv => by
    rw [jobj2LoopH, jobj2T]
    dsimp only
    obtain ⟨R1, u1⟩ := pushKv_upd g h5 [] (Good.none g.inv) (by simp)
    have s1 := Run.upd (c := c) g.inv r (fun n => { n with kvs := n.kvs ++ [([], none)] }) (fun h => by omega) rfl
    refine Into.after u1 s1 ?_
    have hc1 := fun d hd => Nat.lt_of_lt_of_le (hc d hd) s1.step.nextC
    have g1 := u1.good
    have hv1 := pushKv_like [] hv (rfl : canon .nil = canon .nil)
    refine Into.lift g1 hv1 fun start => Into.ite (fun _ => Into.err g1 hv1 _) (fun _ => Into.lift g1 hv1 fun b => Into.lift g1 hv1 fun kb => ?_)
    obtain ⟨R2, u2⟩ := setKv_upd g1 h5 kb.1 (Good.none g1.inv) (by simp)
    have s2 := Run.upd (c := c) g1.inv r (fun n => { n with kvs := setLast n.kvs (kb.1, none) }) (fun h => by omega) rfl
    refine Into.after u2 s2 ?_
    have hc2 := fun d hd => Nat.lt_of_lt_of_le (hc1 d hd) s2.step.nextC
    have g2 := u2.good
    have hv2 := setKv_like kb.1 hv1 (rfl : canon .nil = canon .nil)
    refine Into.lift g2 hv2 fun colon =>
      Into.ite (fun _ => Into.err g2 hv2 _) (fun _ => Into.lift g2 hv2 fun b => Into.value g2 hv2 ((jsim E fuel).value c _ _ g2.inv hc2) ?_)
    intro z b a h' z' G hz m s
    obtain ⟨R3, u, s3⟩ := Into.put g2 m s (fun g' hd => setKv_upd g' h5 kb.1 m.good hd)
      (Run.upd s.step.inv r (fun n => { n with kvs := setLast n.kvs (kb.1, a) }) (fun h => by omega) rfl)
    refine Into.after u s3 ?_
    have g3 := u.good
    have hv3 := setKv_like kb.1 hv2 hz
    refine Into.ite (fun _ => Into.err g3 hv3 _) (fun _ => Into.lift g3 hv3 fun x => ?_)
    refine Into.ite (fun _ => Into.lift g3 hv3 fun b => jobj2LoopH_into E r h5 c fuel _ b R3 _ _ (fun d hd => Nat.lt_of_lt_of_le (hc2 d hd) s3.step.nextC) g3 hv3) (fun _ => ?_)
    exact Into.ite (fun _ => Into.lift g3 hv3 fun b => Into.same g3 hv3 b) (fun _ => Into.err g3 hv3 _)

theorem jarrLoopH_into (E : Env) (r : Ptr) (h5 : 5 ≤ r) (c : Option CId) : ∀ (fuel : Nat) (h : Heap) (b : Bytes) (R : List Ptr) (w v : Val),
    (∀ d, c = some d → d < h.nextC) → Good h (some r) w R → canon w = canon v → Into c h r R (jarr2T E fuel v b) (jarrLoopH E fuel c r h b)
  | 0, _, _, _, _, _, _, _, _ => trivial
  | fuel + 1, h, b, R, w, v, hc, g, hv => by
    rw [jarrLoopH, jarr2T]
    refine Into.value g hv ((jsim E fuel).value c h _ g.inv hc) ?_
    intro z b a h' z' G hz m s
    obtain ⟨R2, u, s2⟩ := Into.put g m s (fun g' hd => pushArr_upd g' h5 m.good hd)
      (Run.upd s.step.inv r (fun n => { n with arr := n.arr ++ [a] }) (fun h => by omega) rfl)
    refine Into.after u s2 ?_
    have g2 := u.good
    have hv2 := pushArr_like hv hz
    refine Into.ite (fun _ => Into.err g2 hv2 _) (fun _ => Into.lift g2 hv2 fun x => ?_)
    refine Into.ite (fun _ => Into.lift g2 hv2 fun b => jarrLoopH_into E r h5 c fuel _ b R2 _ _ (fun d hd => Nat.lt_of_lt_of_le (hc d hd) s2.step.nextC) g2 hv2) (fun _ => ?_)
    exact Into.ite (fun _ => Into.lift g2 hv2 fun b => Into.same g2 hv2 b) (fun _ => Into.err g2 hv2 _)

section
variable {h : Heap} {p : Ptr} {w v : Val} {R : List Ptr}

theorem num2Loop_into (E : Env) {c : Option CId} (g : Good h (some p) w R) (hv : canon w = canon v) (h5 : 5 ≤ p) (b : Bytes) :
    ∀ (r : Bytes) (i : Nat), Into c h p R (jnum2T E v b i r) (num2Loop E p h b i r) := by
  intro r
  induction r with
  | nil => intro i; exact Into.same g hv _
  | cons ch r ih =>
    intro i
    rw [num2Loop, jnum2T]
    refine Into.ite (fun _ => ih _) (fun _ => Into.lift g hv fun word => Into.ite (fun _ => Into.lift g hv fun t => Into.ite (fun _ => Into.lift g hv fun xs => ?_)
      (fun _ => Into.err g hv _)) (fun _ => Into.lift g hv fun ns => Into.lift g hv fun tail => ?_))
    · refine Into.ite (fun _ => Into.lift g hv fun t => Into.reset g h5 (fun _ => rfl) _) (fun _ => ?_)
      exact Into.ite (fun _ => Into.lift g hv fun t => Into.reset g h5 (fun _ => rfl) _) (fun _ => Into.err g hv _)
    · exact Into.ite (fun _ => Into.setFloat g h5 _ _) (fun _ => Into.setInt g hv h5 _ _)

theorem json2H_into (E : Env) (fuel : Nat) (g : Good h (some p) w R) (hv : canon w = canon v) (h5 : 5 ≤ p) (b : Bytes) :
    Into (h.mem p).owner h p R (json2T E fuel v b) (json2H E fuel p h b) := by
  unfold json2H json2T
  dsimp only
  refine Into.ite (fun _ => Into.err g hv _) (fun _ => Into.lift g hv fun b0 => ?_)
  refine Into.ite (fun _ => Into.lift g hv fun b => Into.ite (fun _ => Into.err g hv _) (fun _ => Into.lift g hv fun b0 => Into.ite (fun _ => ?_) (fun _ => ?_))) (fun _ => ?_)
  · exact Into.lift g hv fun t => Into.same g hv _
  · exact jobj2LoopH_into E p h5 _ fuel h _ R w v (fun d hd => g.inv.owner p d hd) g hv
  refine Into.ite (fun _ => Into.lift g hv fun b => Into.ite (fun _ => Into.err g hv _) (fun _ => Into.lift g hv fun b0 => Into.ite (fun _ => ?_) (fun _ => ?_))) (fun _ => ?_)
  · exact Into.lift g hv fun t => Into.same g hv _
  · exact jarrLoopH_into E p h5 _ fuel h _ R w v (fun d hd => g.inv.owner p d hd) g hv
  refine Into.ite (fun _ => Into.lift g hv fun b => Into.lift g hv fun st => ?_) (fun _ => ?_)
  · cases E.jsonTime st.1
    · have u := reset_upd g h5 .rawString
      exact Into.after u (Run.reset g.inv p _) (Into.str (v := .raw []) u.good rfl h5 _ _)
    · have u := reset_upd g h5 .dateTime
      exact Into.after u (Run.reset g.inv p _) (Into.setDouble (v := .dateTime (h.mem p).cell) u.good rfl h5 _ _)
  refine Into.ite (fun _ => Into.lift g hv fun vt => Into.reset g h5 (fun _ => ?_) _) (fun _ => num2Loop_into E g hv h5 b _ _)
  cases vt.1 <;> rfl

/-- `LoadFromJson` after the value has been cleared. -/
theorem loadJsonH_into (E : Env) (g : Good (Heap.clear h p) (some p) w R) (hv : canon w = canon (clearVal v)) (h5 : 5 ≤ p) (b : Bytes) :
    Into ((Heap.clear h p).mem p).owner (Heap.clear h p) p R (loadJsonT E v b) (loadJsonH E h p b) := by
  unfold loadJsonH loadJsonT
  exact Into.ite (fun _ => Into.same g hv _) (fun _ => Into.unit (json2H_into E _ g hv h5 _) _)

end

end Dxs.Heap
