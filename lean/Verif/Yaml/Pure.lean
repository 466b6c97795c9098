import Verif.Yaml.Tree
import Verif.Tree.Exact
import Verif.Props.Read

/-!
# The YAML parser on plain trees

What the lines of a YAML text without `*` do when there is no memory: the value that is built is a tree, and the stack of the parser is a list of positions in
it. `parseLoop_pure` says that the parser in memory (`Yaml/Model.lean`) does the same, whatever else is in memory, whatever nodes are recycled.
-/

namespace Dxs.Yaml

open Dxs.Heap

/-! ## The definitions -/

/-- `yamlNode`, yamlparse.go:14-18, with the position of the value among the children of the value below it in the stack. -/
structure PNode where
  isMap : Bool
  space : Int
  pos : Nat
deriving DecidableEq, Repr

/-- `yamlParser`, yamlparse.go:20-30, without memory. `kept`: the first value, when another one has been begun. -/
structure PSt where
  first : Bool
  last : Int
  kept : Option Val
  root : Option Val
  stack : List PNode
deriving DecidableEq

/-- Where the last value of the stack is. The first one pushed is the root. -/
def pathOf (l : List PNode) : List Nat := (l.dropLast.map (·.pos)).reverse

/-- `parseStringValue`, yamlparse.go:417-471, for a value that is the string `x` before. -/
def scalS (E : Env) (amp : Res Val) (x v : Bytes) : Res Val :=
  if v = trueBytes then .ok .tru
  else if v = [102, 97, 108, 115, 101] then .ok .fls
  else
    match E.parseFloat v with
    | some d => .ok (.double d)
    | none =>
      match v.head? with
      | none => .panic
      | some c =>
        if c = 123 ∧ v.getLast? = some 125 then .ok (.str x)
        else if c = 91 ∧ v.getLast? = some 93 then .ok (.str x)
        else if c = 38 then amp
        else .ok (.str v)

/-- `parseStringValue` with `isfirst` false. -/
def scal2 (E : Env) (x v : Bytes) : Res Val := scalS E (.ok (.str v)) x v

/-- `parseStringValue` with `isfirst` true, yamlparse.go:442-454. -/
def scal1 (E : Env) (x v : Bytes) : Res Val :=
  scalS E (
    match v.findIdx? (· == 32) with
    | none => .ok (.str [])
    | some i => if trim (v.drop (i + 1)) = [] then .ok (.str []) else scal2 E x (trim (v.drop (i + 1)))) x v

/-- The text of a string. -/
def strOf : Val → Bytes
  | .str s => s
  | _ => []

/-- Where `SetKeyCached` puts a member. -/
def posName (E : Env) (v : Val) (k : Bytes) : Nat := if asIndex E k v then arrPos (arrOf v) (strIdx E k) else objPos E (objOf v).1 (objOf v).2 k

/-- A member is found or made, and gets its value. -/
def member (E : Env) (w : Val) (key : Bytes) (t : VT) (f : Val → Res Val) : Res (Val × Nat) :=
  if asIndex E key w = false ∧ oldName E w key = some .nil then .panic
  else do
    let x ← f (slotOf t 0 (oldName E w key))
    .ok (putName E w key x, posName E w key)

/-- A member with the text `v`. -/
def strMember (E : Env) (w : Val) (key v : Bytes) : Res (Val × Nat) := member E w key .string (fun old => scal1 E (strOf old) v)

/-- A member that is an object. -/
def objMember0 (E : Env) (w : Val) (key : Bytes) : Res (Val × Nat) := member E w key .object .ok

/-- `parseArray`, yamlparse.go:127-171: the value after the line, what is pushed, and `ifFirstObjEle`; `l` is the text after `-` without blanks. -/
def arrLine (E : Env) (l : Bytes) (sp : Int) (first : Bool) (w : Val) : Res (Val × List PNode × Bool) :=
  let w := if w.vt = .object then .arr [] else w
  if w.vt = .array then
    let xs := arrOf w
    if l = [] then .ok (.arr (xs ++ [.arr []]), [⟨false, sp, xs.length⟩], first)
    else
      let (key, v, split) := splitKv l
      if !split then do
        let x ← scal1 E [] key
        .ok (.arr (xs ++ [x]), [⟨false, sp, xs.length⟩], first)
      else if key = [] then .err (.yaml l)
      else do
        let (x, i) ← if v = [] then member E (.obj false []) key .null .ok else strMember E (.obj false []) key v
        .ok (.arr (xs ++ [x]), [⟨true, sp, i⟩, ⟨true, sp, xs.length⟩], true)
  else if l = [] then .ok (w, [], first)
  else do
    let t ← textOf E w
    .ok (.str (t ++ [32] ++ l), [], first)

/-- A line on the level of the line before, yamlparse.go:291-310. -/
def sameLine (E : Env) (line key v : Bytes) (split : Bool) (w : Val) : Res (Val × Nat) :=
  if key = [] ∨ split = false then .err (.yaml line)
  else if key = [60, 60] ∧ v = [] then .err (.yaml line)
  else if v ≠ [] then strMember E w key v
  else objMember0 E w key

/-- The member of a deeper line, yamlparse.go:334-375. -/
def childMember (E : Env) (key v : Bytes) (w : Val) : Res (Val × Nat) :=
  match v.head? with
  | none => objMember0 E w key
  | some c =>
    if c = 38 then
      let r := v.drop 1
      let i := (r.findIdx? (· == 32)).getD 0
      let u := if 0 < i then trim (r.drop i) else []
      if u = [] then objMember0 E w key else strMember E w key u
    else strMember E w key v

/-- A deeper line, yamlparse.go:311-376. -/
def childLine (E : Env) (line key v : Bytes) (sp : Int) (w : Val) : Res (Val × List PNode) :=
  if key = [] then
    if w.vt = .object ∨ w.vt = .array then .err (.yaml line)
    else do
      let t ← textOf E w
      .ok (.str (t ++ [32, 58] ++ v), [])
  else if key = [60, 60] ∧ v = [] then .err (.yaml line)
  else do
    let (w, i) ← childMember E key v (if w.vt = .object then w else .obj false [])
    .ok (w, [⟨false, sp, i⟩])

/-- A line that closes levels, yamlparse.go:377-396. -/
def backLine (E : Env) (line key v : Bytes) (split : Bool) (w : Val) : Res (Val × Nat) :=
  if key = [] ∨ split = false ∨ w.vt ≠ .object then .err (.yaml line)
  else if v = [] then objMember0 E w key
  else strMember E w key v

/-- `parseObject`, yamlparse.go:285-399: the value after the line, and what is pushed. -/
def objLine (E : Env) (line : Bytes) (sp last : Int) (empty : Bool) (w : Val) : Res (Val × List PNode) :=
  let (key, v, split) := splitKv line
  if empty = true ∧ (key = [] ∨ split = false) then .err (.yaml line)
  else if last = sp then do
    let (w, i) ← sameLine E line key v split w
    .ok (w, [⟨false, sp, i⟩])
  else if sp > last then childLine E line key v sp w
  else do
    let (w, i) ← backLine E line key v split w
    .ok (w, [⟨false, sp, i⟩])

/-- The stack after closing levels, as `closeTo`. -/
def pclose (sp : Int) : List PNode → List PNode
  | [] => []
  | [n] => [n]
  | n :: m :: r => if n.space < sp then n :: m :: r else pclose sp (m :: r)

/-- A new root when there is none on the stack, yamlparse.go:115-124, 264-273. -/
def PSt.start (t : VT) (m : PSt) : PSt :=
  if m.stack = [] then { m with kept := m.kept.or m.root, root := some (blankVal t 0), stack := [⟨false, -1, 0⟩] } else m

/-- The value that is being filled. -/
def PSt.top (m : PSt) : Option Val := m.root.bind (Val.sub · (pathOf m.stack))

/-- It is replaced. -/
def PSt.fill (m : PSt) (w : Val) (up : List PNode) (first : Bool) : PSt :=
  { m with root := m.root.map (Val.subst · (pathOf m.stack) w), stack := up ++ m.stack, first := first }

/-- `parseArray`, yamlparse.go:100-172. -/
def parrLine (E : Env) (line : Bytes) (sp : Int) (m : PSt) : Res PSt :=
  if line ≠ [] ∧ line.head? ≠ some 32 ∧ sp ≤ m.last then .err (.yaml line)
  else
    match (m.start .array).top with
    | none => .panic
    | some w => do
      let (w, up, first) ← arrLine E (trim line) sp (m.start .array).first w
      .ok ((m.start .array).fill w up first)

/-- `parseObject`, yamlparse.go:259-399. -/
def pobjLine (E : Env) (line : Bytes) (sp : Int) (m : PSt) : Res PSt :=
  match (m.start .object).top with
  | none => .panic
  | some w => do
    let (w, up) ← objLine E line sp
      (if m.stack.isEmpty = false ∧ (m.start .object).first = true ∧ ((m.start .object).stack.head?.map (·.isMap)) = some true then (m.start .object).last + 2 else (m.start .object).last)
      m.stack.isEmpty w
    .ok ((m.start .object).fill w up false)

/-- `parseLine`, yamlparse.go:176-230. -/
def pline (E : Env) (line : Bytes) (sp : Nat) (m : PSt) : Res PSt :=
  match (line.drop sp).head? with
  | none => .panic
  | some c =>
    if c = 35 then .ok m
    else
      let l := cutComment (line.drop sp)
      let last : Int := if m.first = true ∧ (m.stack.head?.map (·.isMap)) = some true then m.last + 2 else m.last
      let stack := if last > (sp : Int) then pclose sp (m.stack.drop 2) else if last = (sp : Int) then m.stack.drop 1 else m.stack
      do
        let m ← if c = 45 then parrLine E (l.drop 1) sp { m with stack := stack } else pobjLine E l sp { m with stack := stack }
        .ok { m with last := sp }

/-- The loop of `parse`, yamlparse.go:482-515. -/
def ploop (E : Env) (data : Bytes) : Nat → Nat → PSt → Res PSt
  | 0, _, _ => .loop
  | f + 1, i, m =>
    let rest := data.drop i
    let line := rest.takeWhile (· != 10)
    let stop := if line.length < rest.length then i + line.length else data.length
    if stop < i + 2 then
      if stop + 1 = data.length then .ok m else ploop E data f (stop + 1) m
    else do
      let m ← pline E line (line.takeWhile (· == 32)).length m
      if data.length ≤ stop + 1 then .ok m else ploop E data f (stop + 1) m

/-- `parse`, yamlparse.go:473-517. -/
def pparse (E : Env) (f : Nat) (data : Bytes) (m : PSt) : Res PSt :=
  if data = [] then .ok m else ploop E data f 0 { m with last := -1 }

/-! ## Results -/

/-- Two results of the same kind. -/
def RSim {α β : Type} (P : α → β → Prop) : Res α → Res β → Prop
  | .ok a, .ok b => P a b
  | .err e, .err e' => e = e'
  | .panic, .panic => True
  | .loop, .loop => True
  | _, _ => False

section
variable {α β γ δ : Type} {P : α → β → Prop} {Q : γ → δ → Prop}

theorem RSim.imp {P' : α → β → Prop} {a : Res α} {b : Res β} (h : RSim P a b) (hi : ∀ x y, P x y → P' x y) : RSim P' a b := by
  match a, b, h with
  | .ok x, .ok y, h => exact hi x y h
  | .err _, .err _, h => exact h
  | .panic, .panic, _ => trivial
  | .loop, .loop, _ => trivial

theorem RSim.with {a : Res α} {b : Res β} (h : RSim P a b) : RSim (fun x y => P x y ∧ a = .ok x) a b := by
  match a, b, h with
  | .ok x, .ok y, h => exact ⟨h, rfl⟩
  | .err _, .err _, h => exact h
  | .panic, .panic, _ => trivial
  | .loop, .loop, _ => trivial

theorem RSim.bind {a : Res α} {b : Res β} {f : α → Res γ} {g : β → Res δ} (h : RSim P a b) (hf : ∀ x y, P x y → RSim Q (f x) (g y)) : RSim Q (a >>= f) (b >>= g) := by
  match a, b, h with
  | .ok x, .ok y, h => exact hf x y h
  | .err _, .err _, h => exact h
  | .panic, .panic, _ => trivial
  | .loop, .loop, _ => trivial

end

theorem bind_twice {α β γ : Type} (a : Res α) (f : α → Res β) (g : β → Res γ) : (a >>= f) >>= g = a >>= fun x => f x >>= g := by
  cases a <;> rfl

theorem bind_same {α : Type} (a : Res α) : (a >>= fun x => Res.ok x) = a := by cases a <;> rfl

/-! ## One value -/

section
variable {α β : Type} {E : Env} {k : Nat} {s s' : St} {h h1 : Heap} {p q t : Ptr} {v w x : Val} {F : List Ptr}

/-- The parser after something that may only have given names to values. -/
def Par (s s' : St) : Prop := ∃ u, s'.p = { s.p with uses := u }

theorem Par.refl (s : St) (h : Heap) : Par s { s with h := h } := ⟨s.p.uses, rfl⟩

/-- A scalar in memory and on trees. -/
abbrev Sim0 (s : St) (t : Ptr) (F : List Ptr) : Res St → Res Val → Prop := RSim (fun s' x => (∃ F', Upd s.h F s'.h (some t) x F') ∧ Par s s')

theorem strVal_sim {b v : Bytes} {amp : Res St} {ampT : Res Val} (g : Good s.h (some t) (.str b) F) (h5 : 5 ≤ t) (hs : 42 ∉ v) (ha : Sim0 s t F amp ampT) :
    Sim0 s t F (strVal E k amp s t v) (scalS E ampT b v) := by
  unfold strVal scalS
  split
  · exact ⟨⟨_, setBool_upd g h5 true⟩, s.p.uses, rfl⟩
  split
  · exact ⟨⟨_, setBool_upd g h5 false⟩, s.p.uses, rfl⟩
  cases hf : E.parseFloat v with
  | some d => exact ⟨⟨_, setDouble_upd g h5 _⟩, s.p.uses, rfl⟩
  | none =>
    cases hc : v.head? with
    | none => trivial
    | some c =>
      dsimp only
      split
      · exact ⟨⟨_, g.upd_refl⟩, s.p.uses, rfl⟩
      split
      · exact ⟨⟨_, g.upd_refl⟩, s.p.uses, rfl⟩
      split
      · exact ha
      split
      · rename_i h42
        exact absurd (List.mem_of_mem_head? (by rw [hc, h42]; rfl)) hs
      · exact ⟨⟨_, setString_upd g h5 v⟩, s.p.uses, rfl⟩

theorem strVal2_sim {b v : Bytes} (g : Good s.h (some t) (.str b) F) (h5 : 5 ≤ t) (hs : 42 ∉ v) : Sim0 s t F (strVal2 E k s t v) (scal2 E b v) :=
  strVal_sim g h5 hs ⟨⟨_, setString_upd g h5 v⟩, s.p.uses, rfl⟩

theorem strVal1_sim {b v : Bytes} (g : Good s.h (some t) (.str b) F) (h5 : 5 ≤ t) (hs : 42 ∉ v) : Sim0 s t F (strVal1 E k s t v) (scal1 E b v) := by
  refine strVal_sim g h5 hs ?_
  cases hi : v.findIdx? (· == 32) with
  | none => exact ⟨⟨_, setString_upd g h5 _⟩, s.p.uses, rfl⟩
  | some i =>
    dsimp only
    split
    · exact ⟨⟨_, setString_upd g h5 _⟩, _, rfl⟩
    · have := strVal2_sim (E := E) (k := k) (s := { s with p := { s.p with uses := setUse ((v.take i).drop 1) t s.p.uses } }) (t := t) (v := trim (v.drop (i + 1))) g h5
        (fun hm => hs (List.mem_of_mem_drop (trim_sub hm)))
      exact this.imp (fun s' x hx => ⟨hx.1, hx.2⟩)

/-- What `SetKeyCached` and `SetIndexCached` return: a value in its place. -/
structure HandsP (h : Heap) (F : List Ptr) (p : Ptr) (put : Val → Val) (pos : Nat) (x : Val) (q : Ptr) (h1 : Heap) : Prop where
  out : ∃ Fq, Good h1 (some q) x Fq ∧ 5 ≤ q ∧ p ∉ Fq ∧ ¬Avail h1 p ∧ (Node.kids (h1.mem p))[pos]? = some (some q) ∧
    ∀ h2 x' Fq', Upd h1 Fq h2 (some q) x' Fq' → ∃ F', Upd h F h2 (some p) (put x') F'

theorem HandsP.after {h0 : Heap} {F0 : List Ptr} {v0 : Val} {put : Val → Val} {pos : Nat} (a : HandsP h0 F0 p put pos x q h1) (u : Upd h F h0 (some p) v0 F0) :
    HandsP h F p put pos x q h1 := by
  obtain ⟨Fq, g, h5, hp, ha, hk, hu⟩ := a.out
  exact ⟨Fq, g, h5, hp, ha, hk, fun h2 w' Fq' u2 => by obtain ⟨F', u3⟩ := hu h2 w' Fq' u2; exact ⟨F', UpdX.trans u u3⟩⟩

/-- The new child of a value. -/
theorem HandsP.of {v1 : Val} {F1 : List Ptr} {i : Nat} {put : Val → Val} (h5p : 5 ≤ p) (u : Upd h F h1 (some p) v1 F1) (hk : (Val.kids v1)[i]? = some x)
    (hq : (Node.kids (h1.mem p))[i]? = some (some q)) (h5 : 5 ≤ q) (hput : ∀ x', Val.setKid v1 i x' = put x') : HandsP h F p put i x q h1 := by
  obtain ⟨b, Fq, hb, gq, -, hupd⟩ := u.good.kid hk
  rw [hq] at hb
  cases hb
  obtain ⟨x2, Fq2, gq2, -, hp, -⟩ := kid_tree u.good (List.mem_of_getElem? hq)
  have : Fq2 = Fq := (rep_det gq2.rep gq.rep).2
  subst this
  refine ⟨Fq2, gq, h5, hp, u.good.live p (rep_mem u.good.rep h5p), hq, fun h2 x' Fq' u2 => ?_⟩
  obtain ⟨F', u'⟩ := hupd [] h2 x' Fq' u2 (by simp)
  rw [hput] at u'
  exact ⟨F', UpdX.trans u u'⟩

theorem slotOf_blank {t : VT} (ht : ∀ c, blankVal t c = blankVal t 0) (c : BitVec 64) (old : Option Val) : slotOf t c old = slotOf t 0 old := by
  unfold slotOf
  split
  · split
    · rfl
    · exact ht c
  · exact ht c

theorem idx_hands (g : Good h (some p) v F) (h5 : 5 ≤ p) (idx : Int) (t : VT) (c : Option CId) (hc : ∀ d, c = some d → d < h.nextC) (ht : ∀ c, blankVal t c = blankVal t 0)
    (hct : (constOf t).isNone) :
    HandsP h F p (arrPut (arrOf v) idx) (arrPos (arrOf v) idx) (slotOf t 0 (arrOld (arrOf v) idx)) (setIndexCached h p idx t c).1 (setIndexCached h p idx t c).2 := by
  obtain ⟨F0, u⟩ := toArrX g h5
  obtain ⟨hd, -⟩ := arr_first h h5
  have hn : (if (h.mem p).dt = .array then h else reset h p .array).nextC = h.nextC := by
    split
    · rfl
    · exact (Same.reset h p .array).nextC
  have e : setIndexCached h p idx t c = setIndexCached (if (h.mem p).dt = .array then h else reset h p .array) p idx t c := by
    unfold setIndexCached
    simp only [hd, if_true]
  rw [e]
  rw [← hn] at hc
  generalize (if (h.mem p).dt = .array then h else reset h p .array) = h0 at u hc
  obtain ⟨w, F1, u1, hkid, hs, hge⟩ := setIndexCached_arr u.good idx t c hc
  obtain ⟨c', rfl⟩ := Slot.iff.1 hs
  rw [slotOf_blank ht] at u1
  exact HandsP.after (HandsP.of h5 u1 (kids_arrPut _ _ _) hkid (hge hct) (fun x' => setKid_arrPut _ _ _ _)) u

theorem key_hands (g : Good h (some p) v F) (h5 : 5 ≤ p) (key : Bytes) (t : VT) (c : Option CId) (hc : ∀ d, c = some d → d < h.nextC) (ht : ∀ c, blankVal t c = blankVal t 0)
    (hct : (constOf t).isNone ∨ asIndex E key v = false) :
    match setKeyCached E h p key t c with
    | .ok (q, h1) => HandsP h F p (putName E v key) (posName E v key) (slotOf t 0 (oldName E v key)) q h1 ∧ ¬ (asIndex E key v = false ∧ oldName E v key = some .nil)
    | .panic => asIndex E key v = false ∧ oldName E v key = some .nil
    | _ => False := by
  have hdt := rep_dt g.rep
  by_cases ha : (h.mem p).dt = .array ∧ strIdx E key ≠ -1
  · have e' : setKeyCached E h p key t c = .ok (setIndexCached h p (strIdx E key) t (h.mem p).owner) := by
      unfold setKeyCached setIndex; rw [if_pos ha]
    obtain ⟨xs, rfl⟩ := vt_arr (hdt.symm.trans ha.1) (rep_ne_nil g.rep)
    have hb : asIndex E key (.arr xs) = true := by simp [asIndex, ha.2]
    have := idx_hands g h5 (strIdx E key) t (h.mem p).owner (fun d => g.inv.owner p d) ht (hct.resolve_right (by simp [hb]))
    rw [e']
    have e1 : oldName E (.arr xs) key = arrOld (arrOf (.arr xs)) (strIdx E key) := by simp only [oldName, hb, if_true]
    have e2 : putName E (.arr xs) key = arrPut (arrOf (.arr xs)) (strIdx E key) := by funext w; simp only [putName, hb, if_true]
    have e3 : posName E (.arr xs) key = arrPos (arrOf (.arr xs)) (strIdx E key) := by simp only [posName, hb, if_true]
    dsimp only
    rw [e1, e2, e3]
    exact ⟨this, by simp [hb]⟩
  · obtain ⟨F0, u⟩ := toObjX g h5
    obtain ⟨hd, ho⟩ := obj_first h h5
    have hb : asIndex E key v = false := by
      cases v <;> simp_all [asIndex, Val.vt]
    have e1 : oldName E v key = objOld E (objOf v).1 (objOf v).2 key := by simp only [oldName, hb]; rfl
    have e2 : putName E v key = objPut E (objOf v).1 (objOf v).2 key := by funext w; simp only [putName, hb]; rfl
    have e3 : posName E v key = objPos E (objOf v).1 (objOf v).2 key := by simp only [posName, hb]; rfl
    have hn : (if (h.mem p).dt = .object then h else reset h p .object).nextC = h.nextC := by
      split
      · rfl
      · exact (Same.reset h p .object).nextC
    have e' : setKeyCached E h p key t c = setKeyCached E (if (h.mem p).dt = .object then h else reset h p .object) p key t c := by
      by_cases hb : (h.mem p).dt = .object
      · rw [if_pos hb]
      · rw [if_neg hb] at hd ⊢
        unfold setKeyCached
        have h3 : ¬ (((reset h p .object).mem p).dt = .array ∧ strIdx E key ≠ -1) := by rw [hd]; simp
        simp only [if_neg ha, if_neg h3, if_neg hb, if_pos hd]
    rw [e', e1, e2, e3]
    rw [← hn] at hc
    generalize (if (h.mem p).dt = .object then h else reset h p .object) = h0 at u hc
    generalize (objOf v).1 = ku at u ⊢
    generalize (objOf v).2 = kvs at u ⊢
    by_cases hnil : objOld E ku kvs key = some .nil
    · rw [setKeyCached_nil E u.good key t _ hnil]
      exact ⟨hb, hnil⟩
    · obtain ⟨q', h1', w, F1, he, u1, hk, hq, hs⟩ := setKeyCached_obj E u.good key t c hc hnil
      obtain ⟨c', rfl⟩ := Slot.iff.1 hs
      rw [slotOf_blank ht] at u1
      rw [he]
      exact ⟨HandsP.after (HandsP.of h5 u1 (kids_objPut _ _ _ _ _) hk hq (fun x' => setKid_objPut _ _ _ _ _ _)) u, fun h => hnil h.2⟩

/-- A member has been found or made, and filled. -/
structure Mem (s : St) (p : Ptr) (F : List Ptr) (q : Ptr) (s2 : St) (w : Val) (i : Nat) : Prop where
  upd : ∃ F', Upd s.h F s2.h (some p) w F'
  ge : 5 ≤ q
  kid : (Node.kids (s2.h.mem p))[i]? = some (some q)
  par : Par s s2

theorem member_sim {Q : α → β → Prop} {body : Ptr → St → Res St} {kont : Ptr → St → Res α} {f : Val → Res Val} {l : Val → Nat → Res β} {key : Bytes} {t : VT}
    (g : Good s.h (some p) w F) (h5 : 5 ≤ p) (o : SOk s) (ht : ∀ c, blankVal t c = blankVal t 0) (hct : (constOf t).isNone ∨ asIndex E key w = false)
    (hf : ∀ q h1 G, Good h1 (some q) (slotOf t 0 (oldName E w key)) G → 5 ≤ q → Sim0 { s with h := h1 } q G (body q { s with h := h1 }) (f (slotOf t 0 (oldName E w key))))
    (hk : ∀ q s2 w' i, Mem s p F q s2 w' i → RSim Q (kont q s2) (l w' i)) :
    RSim Q (do let (q, s1) ← putKey E s p key t; let s2 ← body q s1; kont q s2) (do let (w', i) ← member E w key t f; l w' i) := by
  have H := key_hands (E := E) g h5 key t s.p.cache o.2 ht hct
  unfold putKey member
  generalize setKeyCached E s.h p key t s.p.cache = r at H ⊢
  match r, H with
  | .ok (q, h1), ⟨H, hn⟩ =>
    obtain ⟨G, gq, hq, hp, ha, hkid, hu⟩ := H.out
    rw [if_neg hn]
    have := hf q h1 G gq hq
    show RSim Q (body q { s with h := h1 } >>= fun s2 => kont q s2) _
    rw [bind_twice]
    refine this.bind ?_
    rintro s2 x ⟨⟨G', u⟩, hpar⟩
    refine hk q s2 _ _ ⟨hu _ _ _ u, hq, ?_, hpar⟩
    rw [u.frame.mem p h5 hp ha]
    exact hkid
  | .panic, H => rw [if_pos H]; trivial

/-- A member with a text. -/
theorem strMember_sim {Q : α → β → Prop} {kont : Ptr → St → Res α} {l : Val → Nat → Res β} {key v : Bytes} (g : Good s.h (some p) w F) (h5 : 5 ≤ p) (o : SOk s) (hs : 42 ∉ v)
    (hk : ∀ q s2 w' i, Mem s p F q s2 w' i → RSim Q (kont q s2) (l w' i)) :
    RSim Q (do let (q, s1) ← putKey E s p key .string; let s2 ← strVal1 E k s1 q v; kont q s2) (do let (w', i) ← strMember E w key v; l w' i) := by
  refine member_sim (body := fun q s1 => strVal1 E k s1 q v) g h5 o (fun _ => rfl) (Or.inl rfl) ?_ hk
  intro q h1 G gq hq
  have hv := slotOf_vt .string 0 (oldName E w key)
  have : ∃ b, slotOf .string 0 (oldName E w key) = .str b := by
    generalize slotOf .string 0 (oldName E w key) = x at hv
    obtain ⟨hv, hn⟩ := hv
    cases x <;> simp_all [Val.vt]
  obtain ⟨b, hb⟩ := this
  rw [hb] at gq ⊢
  exact strVal1_sim (s := { s with h := h1 }) gq hq hs

/-- A member of which nothing is known but its type. -/
theorem objMember_sim {Q : α → β → Prop} {kont : Ptr → St → Res α} {l : Val → Nat → Res β} {key : Bytes} {t : VT} (g : Good s.h (some p) w F) (h5 : 5 ≤ p) (o : SOk s)
    (ht : ∀ c, blankVal t c = blankVal t 0) (hct : (constOf t).isNone ∨ asIndex E key w = false) (hk : ∀ q s2 w' i, Mem s p F q s2 w' i → RSim Q (kont q s2) (l w' i)) :
    RSim Q (do let (q, s1) ← putKey E s p key t; kont q s1) (do let (w', i) ← member E w key t .ok; l w' i) :=
  member_sim (body := fun _ s1 => .ok s1) g h5 o ht hct (fun _ h1 G gq _ => ⟨⟨G, gq.upd_refl⟩, Par.refl _ h1⟩) hk

end

/-! ## The stack -/

/-- The node below which something has been pushed. -/
def topOf (p : Ptr) : List YNode → Ptr
  | [] => p
  | n :: _ => n.v

/-- The two kinds of stack elements say the same. -/
def Flags (n : YNode) (k : PNode) : Prop := n.isMap = k.isMap ∧ n.space = k.space

/-- What has been pushed on `p`: every node is the child of the one below, at its position. -/
def Ups (m : Ptr → Node) (p : Ptr) : List YNode → List PNode → Prop
  | [], [] => True
  | n :: l, k :: l' => Flags n k ∧ 5 ≤ n.v ∧ (Node.kids (m (topOf p l)))[k.pos]? = some (some n.v) ∧ Ups m p l l'
  | _, _ => False

/-- The whole stack, with the root `r`. -/
def Stk (m : Ptr → Node) (r : Ptr) : List YNode → List PNode → Prop
  | [n], [k] => Flags n k ∧ n.v = r
  | n :: n2 :: l, k :: k2 :: l' => Flags n k ∧ 5 ≤ n.v ∧ (Node.kids (m n2.v))[k.pos]? = some (some n.v) ∧ Stk m r (n2 :: l) (k2 :: l')
  | _, _ => False

section
variable {m m' : Ptr → Node} {r : Ptr}

theorem Stk.cons {ns : List YNode} {ks : List PNode} (a : Stk m r ns ks) : ∃ n l k l', ns = n :: l ∧ ks = k :: l' ∧ Flags n k := by
  match ns, ks, a with
  | [n], [k], a => exact ⟨n, [], k, [], rfl, rfl, a.1⟩
  | n :: n2 :: l, k :: k2 :: l', a => exact ⟨n, _, k, _, rfl, rfl, a.1⟩

theorem Stk.congr : ∀ {l : List YNode} {l' : List PNode} {n : YNode} {k : PNode}, (∀ x ∈ l, m' x.v = m x.v) → Stk m r (n :: l) (k :: l') → Stk m' r (n :: l) (k :: l')
  | [], [], _, _, _, a => a
  | n2 :: l, k2 :: l', n, k, h, ⟨a1, a2, a3, a4⟩ =>
    ⟨a1, a2, by rw [h n2 (by simp)]; exact a3, Stk.congr (fun x hx => h x (by simp [hx])) a4⟩

theorem Stk.push {n : YNode} {l : List YNode} {ks : List PNode} (a : Stk m r (n :: l) ks) : ∀ {up : List YNode} {up' : List PNode}, Ups m n.v up up' → Stk m r (up ++ n :: l) (up' ++ ks)
  | [], [], _ => a
  | [x], [k], ⟨h1, h2, h3, _⟩ => by
    obtain ⟨_, _, k2, l', e, rfl, _⟩ := a.cons
    exact ⟨h1, h2, h3, a⟩
  | x :: y :: up, k :: k2 :: up', ⟨h1, h2, h3, h4⟩ => ⟨h1, h2, h3, Stk.push (up := y :: up) (up' := k2 :: up') a h4⟩
  | [_], _ :: _ :: _, ⟨_, _, _, h⟩ => h.elim
  | _ :: _ :: _, [_], ⟨_, _, _, h⟩ => h.elim

theorem Stk.tail {n : YNode} {l : List YNode} {k : PNode} {l' : List PNode} (a : Stk m r (n :: l) (k :: l')) : (l = [] ∧ l' = []) ∨ Stk m r l l' := by
  match l, l', a with
  | [], [], _ => exact Or.inl ⟨rfl, rfl⟩
  | n2 :: l, k2 :: l', a => exact Or.inr a.2.2.2

/-- Nothing, or a stack. -/
def Stk0 (m : Ptr → Node) (r : Ptr) (ns : List YNode) (ks : List PNode) : Prop := (ns = [] ∧ ks = []) ∨ Stk m r ns ks

theorem Stk0.drop1 {ns : List YNode} {ks : List PNode} (a : Stk0 m r ns ks) : Stk0 m r (ns.drop 1) (ks.drop 1) := by
  rcases a with ⟨rfl, rfl⟩ | a
  · exact Or.inl ⟨rfl, rfl⟩
  · obtain ⟨n, l, k, l', rfl, rfl, _⟩ := a.cons
    exact a.tail

theorem Stk0.drop2 {ns : List YNode} {ks : List PNode} (a : Stk0 m r ns ks) : Stk0 m r (ns.drop 2) (ks.drop 2) := by
  have := a.drop1.drop1
  simpa using this

theorem Stk0.close (sp : Int) : ∀ {ns : List YNode} {ks : List PNode}, Stk0 m r ns ks → Stk0 m r (closeTo sp ns) (pclose sp ks)
  | [], [], a => a
  | [_], [_], a => a
  | n :: n2 :: l, k :: k2 :: l', a => by
    have hs := (a.resolve_left (by simp))
    have hf : n.space = k.space := hs.1.2
    unfold closeTo pclose
    rw [hf]
    split
    · exact a
    · exact Stk0.close sp (Or.inr hs.2.2.2)
  | [], _ :: _, a => by rcases a with ⟨_, h⟩ | h; cases h; exact h.elim
  | _ :: _, [], a => by rcases a with ⟨h, _⟩ | h; cases h; obtain ⟨_, _, _, _, _, h, _⟩ := h.cons; cases h
  | [_], _ :: _ :: _, a => by rcases a with ⟨h, _⟩ | h; cases h; exact h.elim
  | _ :: _ :: _, [_], a => by rcases a with ⟨h, _⟩ | h; cases h; exact h.elim

theorem Stk0.empty {ns : List YNode} {ks : List PNode} (a : Stk0 m r ns ks) : ns = [] ↔ ks = [] := by
  rcases a with ⟨rfl, rfl⟩ | a
  · simp
  · obtain ⟨n, l, k, l', rfl, rfl, _⟩ := a.cons
    simp

theorem Stk0.isMap {ns : List YNode} {ks : List PNode} (a : Stk0 m r ns ks) : ns.head?.map (·.isMap) = ks.head?.map (·.isMap) := by
  rcases a with ⟨rfl, rfl⟩ | a
  · rfl
  · obtain ⟨n, l, k, l', rfl, rfl, hf⟩ := a.cons
    simp [hf.1]

theorem pathOf_cons (k k2 : PNode) (l : List PNode) : pathOf (k :: k2 :: l) = pathOf (k2 :: l) ++ [k.pos] := by
  simp [pathOf, List.dropLast]

theorem sub_snoc : ∀ (π : List Nat) (v : Val) (i : Nat), Val.sub v (π ++ [i]) = (Val.sub v π).bind (fun u => (Val.kids u)[i]?)
  | [], v, i => by simp [Val.sub]
  | j :: π, v, i => by
    simp only [List.cons_append, Val.sub]
    cases (Val.kids v)[j]? with
    | none => rfl
    | some x => exact sub_snoc π x i

theorem subst_snoc : ∀ (π : List Nat) {v u : Val} {i : Nat} {x w : Val}, Val.sub v π = some u → (Val.kids u)[i]? = some x →
    Val.subst v (π ++ [i]) w = Val.subst v π (Val.setKid u i w)
  | [], v, u, i, x, w, h, hx => by
    cases h
    simp [Val.subst, hx]
  | j :: π, v, u, i, x, w, h, hx => by
    simp only [List.cons_append, Val.sub, Val.subst] at h ⊢
    cases hj : (Val.kids v)[j]? with
    | none => simp [hj] at h
    | some y =>
      rw [hj] at h
      dsimp only
      rw [subst_snoc π h hx]

/-- The value at the end of the stack. -/
theorem downX {h : Heap} {v : Val} {F : List Ptr} (g : Good h (some r) v F) (h5 : 5 ≤ r) : ∀ {l : List YNode} {l' : List PNode} {n : YNode} {k : PNode},
    Stk h.mem r (n :: l) (k :: l') → ∃ w Fq, Val.sub v (pathOf (k :: l')) = some w ∧ Good h (some n.v) w Fq ∧ 5 ≤ n.v ∧ (∀ x ∈ Fq, x ∈ F) ∧
      (∀ x ∈ l, 5 ≤ x.v ∧ x.v ∈ F ∧ x.v ∉ Fq) ∧ ∀ h2 w' Fq', Upd h Fq h2 (some n.v) w' Fq' → ∃ F', Upd h F h2 (some r) (Val.subst v (pathOf (k :: l')) w') F'
  | [], [], n, k, a => by
    obtain ⟨-, rfl⟩ := a
    exact ⟨v, F, rfl, g, h5, fun _ => id, by simp, fun h2 w' Fq' u => ⟨_, u⟩⟩
  | n2 :: l, k2 :: l', n, k, ⟨_, hn, hk, a⟩ => by
    obtain ⟨u, Fp, hsub, gp, h52, hs, hr, hu⟩ := downX g h5 a
    obtain ⟨x, Fq, gq, hs2, hp, -⟩ := kid_tree gp (List.mem_of_getElem? hk)
    have hi : k.pos < (Val.kids u).length := by
      rw [← rep_kids_len gp.rep]
      exact (List.getElem?_eq_some_iff.1 hk).1
    have hx : (Val.kids u)[k.pos]? = some (Val.kids u)[k.pos] := List.getElem?_eq_getElem hi
    obtain ⟨b, Fi, hb, gi, -, hupd⟩ := gp.kid hx
    rw [hk] at hb
    cases hb
    obtain ⟨e1, e2⟩ := rep_det gq.rep gi.rep
    subst e2
    refine ⟨(Val.kids u)[k.pos], Fq, ?_, gi, hn, fun y hy => hs y (hs2 y hy), ?_, ?_⟩
    · rw [pathOf_cons, sub_snoc, hsub]
      exact hx
    · intro y hy
      rcases List.mem_cons.1 hy with rfl | hy
      · exact ⟨h52, hs _ (rep_mem gp.rep h52), hp⟩
      · exact ⟨(hr y hy).1, (hr y hy).2.1, fun hF => (hr y hy).2.2 (hs2 _ hF)⟩
    · intro h2 w' Fq' u2
      obtain ⟨F2, u3⟩ := hupd [] h2 w' Fq' u2 (by simp)
      rw [pathOf_cons, subst_snoc _ hsub hx]
      exact hu _ _ _ u3

end

/-! ## One line -/

section
variable {E : Env} {k : Nat} {s s' : St} {p q : Ptr} {w w' : Val} {F : List Ptr}

/-- A line has been dealt with: the value `p` is `w'` now, and `up'` has been pushed. -/
structure LineR (s : St) (p : Ptr) (F : List Ptr) (first : Bool) (s' : St) (w' : Val) (up' : List PNode) : Prop where
  upd : ∃ F', Upd s.h F s'.h (some p) w' F'
  par : ∃ up u, s'.p = { s.p with stack := up ++ s.p.stack, first := first, uses := u } ∧ Ups s'.h.mem p up up'

theorem LineR.flat {x : Bool} (u : ∃ F', Upd s.h F s'.h (some p) w' F') (hp : s'.p = s.p) (hx : s.p.first = x) : LineR s p F x s' w' [] :=
  ⟨u, [], s.p.uses, by rw [hp, ← hx]; rfl, trivial⟩

theorem Mem.pushed {i : Nat} (a : Mem s p F q s' w' i) (b : Bool) (sp : Int) {x : Bool} (hx : s.p.first = x) : LineR s p F x (push s' b sp q) w' [⟨b, sp, i⟩] := by
  obtain ⟨u, hu⟩ := a.par
  refine ⟨a.upd, [⟨b, sp, q⟩], u, ?_, ⟨rfl, rfl⟩, a.ge, a.kid, trivial⟩
  simp only [push, hu, ← hx]
  rfl

theorem Mem.named {i : Nat} (a : Mem s p F q s' w' i) (u : List (Bytes × Ptr)) : Mem s p F q { s' with p := { s'.p with uses := u } } w' i := by
  obtain ⟨u1, hu⟩ := a.par
  exact ⟨a.upd, a.ge, a.kid, u, by simp only [hu]⟩

theorem Mem.after {s0 : St} {F0 : List Ptr} {v0 : Val} {i : Nat} (a : Mem s p F q s' w' i) (u : Upd s0.h F0 s.h (some p) v0 F) (hp : s.p = s0.p) : Mem s0 p F0 q s' w' i := by
  obtain ⟨F', u'⟩ := a.upd
  obtain ⟨u1, hu⟩ := a.par
  exact ⟨⟨F', UpdX.trans u u'⟩, a.ge, a.kid, u1, by rw [hu, hp]⟩

theorem mergeRef_pure {line key v : Bytes} (hs : 42 ∉ v) : mergeRef k s p line key v = if key = [60, 60] ∧ v = [] then .err (.yaml line) else .ok (false, s) := by
  unfold mergeRef
  by_cases hk : key = [60, 60]
  · cases v with
    | nil => simp [hk]
    | cons c r =>
      rw [if_pos hk, if_neg (by simp)]
      simp only [List.head?_cons]
      rw [if_neg]
      rintro ⟨rfl, -⟩
      simp at hs
  · rw [if_neg hk, if_neg (fun h => hk h.1)]

/-- The relation between a line in memory and on trees. -/
abbrev SimL (s : St) (p : Ptr) (F : List Ptr) (first : Bool) : Res St → Res (Val × List PNode) → Prop := RSim (fun s' x => LineR s p F first s' x.1 x.2)

theorem objSame_sim {line key v : Bytes} {sp : Int} {split : Bool} (g : Good s.h (some p) w F) (h5 : 5 ≤ p) (o : SOk s) (hs : 42 ∉ v) :
    SimL s p F s.p.first (objSame E k line sp key v split p s) (do let (w, i) ← sameLine E line key v split w; .ok (w, [⟨false, sp, i⟩])) := by
  unfold objSame sameLine
  split
  · rfl
  rw [mergeRef_pure hs]
  split
  · rfl
  simp only [Res.bind_ok]
  rw [if_neg (by simp)]
  split
  · exact strMember_sim (Q := fun s' (x : Val × List PNode) => LineR s p F s.p.first s' x.1 x.2) (kont := fun q s2 => .ok (push s2 false sp q)) (l := fun w i => .ok (w, [(⟨false, sp, i⟩ : PNode)])) g h5 o hs (fun q s2 w' i M => M.pushed false sp rfl)
  · exact objMember_sim (t := .object) (Q := fun s' (x : Val × List PNode) => LineR s p F s.p.first s' x.1 x.2) (kont := fun q s2 => .ok (push s2 false sp q)) (l := fun w i => .ok (w, [(⟨false, sp, i⟩ : PNode)])) g h5 o (fun _ => rfl) (Or.inl rfl) (fun q s2 w' i M => M.pushed false sp rfl)

theorem objBack_sim {line key v : Bytes} {sp : Int} {split : Bool} (g : Good s.h (some p) w F) (h5 : 5 ≤ p) (o : SOk s) (hs : 42 ∉ v) :
    SimL s p F s.p.first (objBack E k line sp key v split p s) (do let (w, i) ← backLine E line key v split w; .ok (w, [⟨false, sp, i⟩])) := by
  unfold objBack backLine
  rw [rep_dt g.rep]
  split
  · rfl
  split
  · exact objMember_sim (t := .object) (Q := fun s' (x : Val × List PNode) => LineR s p F s.p.first s' x.1 x.2) (kont := fun q s2 => .ok (push s2 false sp q)) (l := fun w i => .ok (w, [(⟨false, sp, i⟩ : PNode)])) g h5 o (fun _ => rfl) (Or.inl rfl) (fun q s2 w' i M => M.pushed false sp rfl)
  rename_i hv
  rw [mergeRef_pure hs, if_neg (fun h => hv h.2)]
  simp only [Res.bind_ok]
  rw [if_neg (by simp)]
  exact strMember_sim (Q := fun s' (x : Val × List PNode) => LineR s p F s.p.first s' x.1 x.2) (kont := fun q s2 => .ok (push s2 false sp q)) (l := fun w i => .ok (w, [(⟨false, sp, i⟩ : PNode)])) g h5 o hs (fun q s2 w' i M => M.pushed false sp rfl)

theorem childMember_sim {α β : Type} {Q : α → β → Prop} {kont : Ptr → St → Res α} {l : Val → Nat → Res β} {key v : Bytes} (g : Good s.h (some p) w F) (h5 : 5 ≤ p) (o : SOk s) (hs : 42 ∉ v)
    (hk : ∀ q s2 w' i, Mem s p F q s2 w' i → RSim Q (kont q s2) (l w' i)) :
    RSim Q (do let (q, s1) ← objMember E k key v p s; kont q s1) (do let (w', i) ← childMember E key v w; l w' i) := by
  unfold objMember childMember
  cases hc : v.head? with
  | none => exact objMember_sim g h5 o (fun _ => rfl) (Or.inl rfl) hk
  | some c =>
    dsimp only
    by_cases h38 : c = 38
    · rw [if_pos h38, if_pos h38]
      have hw : ∀ x : Bytes × Bytes, x = (if 0 < ((v.drop 1).findIdx? (· == 32)).getD 0 then ((v.drop 1).take (((v.drop 1).findIdx? (· == 32)).getD 0), trim ((v.drop 1).drop (((v.drop 1).findIdx? (· == 32)).getD 0))) else (v.drop 1, [])) →
          x.2 = (if 0 < ((v.drop 1).findIdx? (· == 32)).getD 0 then trim ((v.drop 1).drop (((v.drop 1).findIdx? (· == 32)).getD 0)) else []) := by
        rintro x rfl
        split <;> rfl
      have hsw : ∀ x : Bytes, x = (if 0 < ((v.drop 1).findIdx? (· == 32)).getD 0 then trim ((v.drop 1).drop (((v.drop 1).findIdx? (· == 32)).getD 0)) else []) → 42 ∉ x := by
        rintro x rfl hm
        split at hm
        · exact hs (List.mem_of_mem_drop (List.mem_of_mem_drop (trim_sub hm)))
        · simp at hm
      generalize hx : (if 0 < ((v.drop 1).findIdx? (· == 32)).getD 0 then ((v.drop 1).take (((v.drop 1).findIdx? (· == 32)).getD 0), trim ((v.drop 1).drop (((v.drop 1).findIdx? (· == 32)).getD 0))) else (v.drop 1, [])) = x
      have hw' := hw x hx.symm
      have hsw' := hsw _ rfl
      rw [← hw'] at hsw' ⊢
      obtain ⟨name, u⟩ := x
      dsimp only at hsw' ⊢
      split
      · rw [bind_twice]
        exact objMember_sim (kont := fun q s2 => kont q { s2 with p := { s2.p with uses := setUse name q s2.p.uses } }) g h5 o (fun _ => rfl) (Or.inl rfl) (fun q s2 w' i M => hk _ _ _ _ (M.named _))
      · have := strMember_sim (E := E) (k := k) (key := key) (kont := fun q s2 => kont q { s2 with p := { s2.p with uses := setUse name q s2.p.uses } }) g h5 o hsw' (fun q s2 w' i M => hk _ _ _ _ (M.named _))
        simp only [bind_twice, Res.bind_ok] at this ⊢
        exact this
    · rw [if_neg h38, if_neg h38, if_neg (by
        rintro rfl
        exact hs (List.mem_of_mem_head? hc))]
      have := strMember_sim (E := E) (k := k) (key := key) (kont := kont) g h5 o hs hk
      simp only [bind_twice, Res.bind_ok] at this ⊢
      exact this

theorem getString_pure (g : Good s.h (some p) w F) (h5 : 5 ≤ p) (h1 : w.vt ≠ .object) (h2 : w.vt ≠ .array) (y : Bytes) :
    SimL s p F s.p.first (do
        let t ← (Heap.getString E .panic (s.h.mem p)).1
        .ok { s with h := setString (s.h.set p (Heap.getString E .panic (s.h.mem p)).2) p (t ++ y) })
      (do let t ← textOf E w; .ok (.str (t ++ y), [])) := by
  have hd := rep_dt g.rep
  have e : (Heap.getString E .panic (s.h.mem p)).1 = textOf E w := by
    rw [← C84_string g]
    rw [← hd] at h1 h2
    generalize s.h.mem p = n at h1 h2
    unfold Heap.getString
    split <;> first | rfl | contradiction
  have u := C84_string_after (E := E) g .panic
  rw [e]
  generalize textOf E w = t
  cases t with
  | ok t =>
    obtain u2 := setString_upd u.good h5 (t ++ y)
    exact LineR.flat ⟨_, UpdX.trans u u2⟩ rfl rfl
  | err _ => rfl
  | panic => trivial
  | loop => trivial

theorem toObj (g : Good s.h (some p) w F) (h5 : 5 ≤ p) :
    ∃ F0, Upd s.h F (if (s.h.mem p).dt = .object then s else { s with h := Heap.reset s.h p .object }).h (some p) (if w.vt = .object then w else .obj false []) F0 := by
  rw [rep_dt g.rep]
  split
  · exact ⟨F, g.upd_refl⟩
  · exact ⟨_, reset_upd g h5 .object⟩

theorem objChild_sim {line key v : Bytes} {sp : Int} (g : Good s.h (some p) w F) (h5 : 5 ≤ p) (o : SOk s) (hs : 42 ∉ v) :
    SimL s p F s.p.first (objChild E k line sp key v p s) (childLine E line key v sp w) := by
  unfold objChild childLine
  split
  · rw [rep_dt g.rep]
    split
    · rfl
    · rename_i h
      have := getString_pure (E := E) g h5 (fun h1 => h (Or.inl h1)) (fun h1 => h (Or.inr h1)) ([32, 58] ++ v)
      simpa only [List.append_assoc] using this
  · obtain ⟨F0, u0⟩ := toObj g h5
    have o1 : SOk (if (s.h.mem p).dt = .object then s else { s with h := Heap.reset s.h p .object }) := by
      split
      · exact o
      · exact o.step (o.1.reset_st p .object)
    have hp : (if (s.h.mem p).dt = .object then s else { s with h := Heap.reset s.h p .object }).p = s.p := by split <;> rfl
    dsimp only
    generalize (if (s.h.mem p).dt = .object then s else { s with h := Heap.reset s.h p .object }) = s1 at u0 o1 hp
    rw [mergeRef_pure hs]
    split
    · rfl
    simp only [Res.bind_ok]
    rw [if_neg (by simp)]
    exact childMember_sim (Q := fun s' (x : Val × List PNode) => LineR s p F s.p.first s' x.1 x.2) (kont := fun q s2 => .ok (push s2 false sp q)) (l := fun w i => .ok (w, [(⟨false, sp, i⟩ : PNode)])) u0.good h5 o1 hs (fun q s2 w' i M => (M.after u0 hp).pushed false sp rfl)

/-- What `parseArray` does with the value that is being filled. -/
def arrBody (E : Env) (k : Nat) (l : Bytes) (sp : Int) (cur : Ptr) (s : St) : Res St :=
  let s := if (s.h.mem cur).dt = .object then { s with h := reset s.h cur .array } else s
  if (s.h.mem cur).dt = .array then
    let (q, h) := setIndexCached s.h cur (-1) (if l ≠ [] then .string else .array) s.p.cache
    let s := push { s with h := h } false sp q
    if l = [] then .ok s
    else
      let (key, v, split) := splitKv l
      if !split then strVal1 E k s q key
      else if key = [] then .err (.yaml l)
      else do
        let s := { s with h := reset s.h q .object }
        let s := { s with p := { s.p with first := true, stack := s.p.stack.modifyHead (fun n => { n with isMap := true }) } }
        let (c, s) ←
          if v = [] then putKey E s q key .null
          else do
            let (c, s) ← putKey E s q key .string
            let s ← strVal1 E k s c v
            .ok (c, s)
        .ok (push s true sp c)
  else if l = [] then .ok s
  else do
    let r := getString E .panic (s.h.mem cur)
    let t ← r.1
    .ok { s with h := setString (s.h.set cur r.2) cur (t ++ [32] ++ l) }

theorem parseArray_eq (E : Env) (pick : Heap → Option Nat) (k : Nat) (line : Bytes) (sp : Int) (s : St) :
    parseArray E pick k line sp s = if line ≠ [] ∧ line.head? ≠ some 32 ∧ sp ≤ s.p.last then .err (.yaml line)
      else match (arrStart pick s).p.stack.head? with
        | none => .panic
        | some top => arrBody E k (trim line) sp top.v (arrStart pick s) := rfl

theorem toArr (g : Good s.h (some p) w F) (h5 : 5 ≤ p) :
    ∃ F0, Upd s.h F (if (s.h.mem p).dt = .object then { s with h := Heap.reset s.h p .array } else s).h (some p) (if w.vt = .object then .arr [] else w) F0 := by
  rw [rep_dt g.rep]
  split
  · exact ⟨_, reset_upd g h5 .array⟩
  · exact ⟨F, g.upd_refl⟩

theorem LineR.after {s0 : St} {F0 : List Ptr} {v0 : Val} {x : Bool} {up : List PNode} (a : LineR s p F x s' w' up) (u : Upd s0.h F0 s.h (some p) v0 F) (hp : s.p = s0.p) :
    LineR s0 p F0 x s' w' up := by
  obtain ⟨F', u'⟩ := a.upd
  obtain ⟨l, u1, hu, hl⟩ := a.par
  exact ⟨⟨F', UpdX.trans u u'⟩, l, u1, by rw [hu, hp], hl⟩

theorem arrPut_end (xs : List Val) (x : Val) : arrPut xs (-1) x = .arr (xs ++ [x]) := by simp [arrPut, inRange]

theorem arrBody_sim {l : Bytes} {sp : Int} (g : Good s.h (some p) w F) (h5 : 5 ≤ p) (o : SOk s) (hs : 42 ∉ l) :
    RSim (fun s' (x : Val × List PNode × Bool) => LineR s p F x.2.2 s' x.1 x.2.1) (arrBody E k l sp p s) (arrLine E l sp s.p.first w) := by
  unfold arrBody arrLine
  obtain ⟨F0, u0⟩ := toArr g h5
  have o1 : SOk (if (s.h.mem p).dt = .object then { s with h := Heap.reset s.h p .array } else s) := resetIf_ok o _ _ _
  have hp : (if (s.h.mem p).dt = .object then { s with h := Heap.reset s.h p .array } else s).p = s.p := by split <;> rfl
  dsimp only
  generalize (if (s.h.mem p).dt = .object then { s with h := Heap.reset s.h p .array } else s) = s1 at u0 o1 hp
  have hno : (if w.vt = .object then .arr [] else w).vt ≠ VT.object := by
    split
    · simp [Val.vt]
    · assumption
  generalize (if w.vt = .object then .arr [] else w) = w1 at u0 hno
  rw [← hp]
  suffices H : RSim (fun s' (x : Val × List PNode × Bool) => LineR s1 p F0 x.2.2 s' x.1 x.2.1) _ _ from H.imp (fun s' x hx => hx.after u0 hp)
  clear hp
  have g1 := u0.good
  clear u0 g o
  rw [rep_dt g1.rep]
  split
  · rename_i ha
    obtain ⟨xs, rfl⟩ := vt_arr ha (rep_ne_nil g1.rep)
    have ht : ∀ c, blankVal (if l ≠ [] then VT.string else VT.array) c = blankVal (if l ≠ [] then VT.string else VT.array) 0 := by intro c; split <;> rfl
    have hct : (constOf (if l ≠ [] then VT.string else VT.array)).isNone := by split <;> rfl
    have H := idx_hands g1 h5 (-1) _ s1.p.cache o1.2 ht hct
    have o2 : SOk { s1 with h := (setIndexCached s1.h p (-1) (if l ≠ [] then VT.string else VT.array) s1.p.cache).2 } :=
      o1.step (o1.1.setIndexCached_st p (-1) _ _ o1.2 (fun _ _ => trivial))
    have hold : arrOld (arrOf (.arr xs)) (-1) = none := rfl
    rw [hold] at H
    have hslot : slotOf (if l ≠ [] then VT.string else VT.array) 0 none = if l ≠ [] then .str [] else .arr [] := by split <;> rfl
    rw [hslot] at H
    generalize setIndexCached s1.h p (-1) _ s1.p.cache = r at H o2
    obtain ⟨q, h2⟩ := r
    obtain ⟨G, gq, hq, hpG, hav, hkid, hu⟩ := H.out
    have hpos : arrPos (arrOf (.arr xs)) (-1) = xs.length := rfl
    rw [hpos] at hkid
    dsimp only at gq hkid hu o2 ⊢
    have hput : ∀ x, arrPut (arrOf (.arr xs)) (-1) x = .arr (xs ++ [x]) := arrPut_end xs
    simp only [hput] at hu
    have hkid' : ∀ {h3 : Heap} {x : Val} {G' : List Ptr}, Upd h2 G h3 (some q) x G' → (Node.kids (h3.mem p))[xs.length]? = some (some q) := by
      intro h3 x G' u
      rw [u.frame.mem p h5 hpG hav]
      exact hkid
    split
    · rename_i hl
      rw [if_neg (by simp [hl])] at gq
      exact ⟨hu _ _ _ gq.upd_refl, [⟨false, sp, q⟩], s1.p.uses, rfl, ⟨rfl, rfl⟩, hq, hkid, trivial⟩
    · rename_i hl
      rw [if_pos hl] at gq
      rcases hkv : splitKv l with ⟨key, v, split⟩
      have hk : 42 ∉ key := fun hm => hs (splitKv_sub (Or.inl (by rw [hkv]; exact hm)))
      have hv : 42 ∉ v := fun hm => hs (splitKv_sub (Or.inr (by rw [hkv]; exact hm)))
      dsimp only
      split
      · have := strVal1_sim (E := E) (k := k) (s := push { s1 with h := h2 } false sp q) (v := key) gq hq hk
        have := this.bind (f := .ok) (g := fun x => .ok (.arr (xs ++ [x]), [(⟨false, sp, xs.length⟩ : PNode)], s1.p.first))
          (Q := fun s' (x : Val × List PNode × Bool) => LineR s1 p F0 x.2.2 s' x.1 x.2.1) (by
            rintro s2 x ⟨⟨G', u⟩, us, hpar⟩
            refine ⟨hu _ _ _ u, [⟨false, sp, q⟩], us, ?_, ⟨rfl, rfl⟩, hq, hkid' u, trivial⟩
            rw [hpar]; rfl)
        rw [bind_same] at this
        exact this
      split
      · rfl
      have u3 := reset_upd gq hq .object
      have hb : blankVal .object (h2.mem q).cell = .obj false [] := rfl
      rw [hb] at u3
      have o3 : SOk { s1 with h := reset h2 q .object } := o2.step (o2.1.reset_st q .object)
      have fin : ∀ c s2 x i, Mem { p := { s1.p with first := true, stack := ⟨true, sp, q⟩ :: s1.p.stack }, h := reset h2 q .object } q [q] c s2 x i →
          RSim (fun s' (x : Val × List PNode × Bool) => LineR s1 p F0 x.2.2 s' x.1 x.2.1) (.ok (push s2 true sp c))
            (.ok (.arr (xs ++ [x]), [(⟨true, sp, i⟩ : PNode), ⟨true, sp, xs.length⟩], true)) := by
        intro c s2 x i M
        obtain ⟨G', u4⟩ := M.upd
        have u5 := UpdX.trans u3 u4
        obtain ⟨us, hpar⟩ := M.par
        refine ⟨hu _ _ _ u5, [⟨true, sp, c⟩, ⟨true, sp, q⟩], us, ?_, ⟨rfl, rfl⟩, M.ge, M.kid, ⟨rfl, rfl⟩, hq, hkid' u5, trivial⟩
        simp only [push, hpar]
        rfl
      have o4 : SOk { p := { s1.p with first := true, stack := ⟨true, sp, q⟩ :: s1.p.stack }, h := reset h2 q .object } := o3.par rfl
      split
      · exact objMember_sim (t := .null) (kont := fun c s2 => .ok (push s2 true sp c)) (l := fun x i => .ok (Val.arr (xs ++ [x]), [(⟨true, sp, i⟩ : PNode), ⟨true, sp, xs.length⟩], true))
          (s := { p := { s1.p with first := true, stack := ⟨true, sp, q⟩ :: s1.p.stack }, h := reset h2 q .object }) u3.good hq o4 (fun _ => rfl) (Or.inr rfl) fin
      · have := strMember_sim (E := E) (k := k) (key := key) (v := v) (kont := fun c s2 => .ok (push s2 true sp c)) (l := fun x i => .ok (Val.arr (xs ++ [x]), [(⟨true, sp, i⟩ : PNode), ⟨true, sp, xs.length⟩], true))
          (s := { p := { s1.p with first := true, stack := ⟨true, sp, q⟩ :: s1.p.stack }, h := reset h2 q .object }) u3.good hq o4 hv fin
        simp only [Res.bind_ok] at this ⊢
        exact this
  · rename_i ha
    split
    · exact LineR.flat ⟨_, g1.upd_refl⟩ rfl rfl
    · have := getString_pure (E := E) g1 h5 hno ha ([32] ++ l)
      have := this.bind (f := .ok) (g := fun (x : Val × List PNode) => .ok (x.1, x.2, s1.p.first)) (Q := fun s' (x : Val × List PNode × Bool) => LineR s1 p F0 x.2.2 s' x.1 x.2.1) (fun s' x hx => hx)
      simp only [bind_twice, Res.bind_ok, List.append_assoc] at this ⊢
      exact this

/-- What `parseObject` does with the value that is being filled. -/
def objBody (E : Env) (k : Nat) (line : Bytes) (sp last : Int) (empty : Bool) (cur : Ptr) (s : St) : Res St :=
  let (key, v, split) := splitKv line
  if empty = true ∧ (key = [] ∨ split = false) then .err (.yaml line)
  else if last = sp then objSame E k line sp key v split cur s
  else if sp > last then objChild E k line sp key v cur s
  else objBack E k line sp key v split cur s

theorem objBody_sim {line : Bytes} {sp last : Int} {empty : Bool} (g : Good s.h (some p) w F) (h5 : 5 ≤ p) (o : SOk s) (hs : 42 ∉ line) :
    SimL s p F s.p.first (objBody E k line sp last empty p s) (objLine E line sp last empty w) := by
  unfold objBody objLine
  rcases hkv : splitKv line with ⟨key, v, split⟩
  have hv : 42 ∉ v := fun hm => hs (splitKv_sub (Or.inr (by rw [hkv]; exact hm)))
  dsimp only
  split
  · rfl
  split
  · exact objSame_sim g h5 o hv
  split
  · exact objChild_sim g h5 o hv
  · exact objBack_sim g h5 o hv

theorem parseObject_eq (E : Env) (pick : Heap → Option Nat) (k : Nat) (line : Bytes) (sp : Int) (s : St) :
    parseObject E pick k line sp s = match (objStart pick s).p.stack.head? with
      | none => .panic
      | some top => objBody E k line sp (if s.p.stack.isEmpty = false ∧ (objStart pick s).p.first = true ∧ top.isMap = true then (objStart pick s).p.last + 2 else (objStart pick s).p.last)
          s.p.stack.isEmpty top.v { (objStart pick s) with p := { (objStart pick s).p with first := false } } := by
  unfold parseObject objStart objBody
  have e1 : (s.p.stack.isEmpty = true) = (s.p.stack = []) := by simp
  have e2 : (s.p.stack.isEmpty = false) = ¬(s.p.stack = []) := by simp
  simp only [e1, e2]
  cases (if s.p.stack = [] then newRoot pick .object s else s).p.stack.head? with
  | none => rfl
  | some top => rfl

end

/-! ## The parser -/

/-- A parser in memory and a parser on trees. `r0`: the value that is loaded. -/
structure Rel (r0 : Option Ptr) (s : St) (m : PSt) : Prop where
  ok : SOk s
  first : s.p.first = m.first
  last : s.p.last = m.last
  made : (r0 = none ∧ s.p.root = none ∧ s.p.stack = [] ∧ m.kept = none ∧ m.root = none ∧ m.stack = []) ∨
    ∃ r v F, s.p.root = some r ∧ m.root = some v ∧ Good s.h (some r) v F ∧ 5 ≤ r ∧ Stk0 s.h.mem r s.p.stack m.stack ∧
      ∀ p, r0 = some p → (m.kept = none ∧ r = p) ∨ ∃ v0 F0, m.kept = some v0 ∧ Good s.h (some p) v0 F0 ∧ ∀ q ∈ F0, q ∉ F

section
variable {E : Env} {k : Nat} {r0 : Option Ptr} {s s' : St} {m : PSt} {pick : Heap → Option Nat}

theorem getCache_frame {h : Heap} (I : Inv h) (pick : Option Nat) : Frame h [] (Heap.getCache h pick).2 :=
  ⟨(I.getCache pick).1, getCache_avail I pick, fun _ _ _ hq => getCache_mem I pick hq⟩

/-- A new root. -/
theorem newRoot_new (I : Inv s.h) (t : VT) (ht : (constOf t).isNone) (hb : ∀ c, blankVal t c = blankVal t 0) :
    ∃ r, (newRoot pick t s).p.root = some r ∧ (newRoot pick t s).p.stack = [⟨false, -1, r⟩] ∧ (newRoot pick t s).p.first = s.p.first ∧ (newRoot pick t s).p.last = s.p.last ∧
      Good (newRoot pick t s).h (some r) (blankVal t 0) [r] ∧ 5 ≤ r ∧ Frame s.h [] (newRoot pick t s).h ∧ Avail s.h r := by
  have hc : constOf t = none := by simpa using ht
  have e : newCacheValue s.h t (pick s.h) = Heap.getValue (Heap.getCache s.h (pick s.h)).2 (some (Heap.getCache s.h (pick s.h)).1) t := by
    unfold newCacheValue; rw [hc]
  have f1 := getCache_frame I (pick s.h)
  obtain ⟨I1, hlt⟩ := I.getCache (pick s.h)
  have A := getValue_spec I1 (some (Heap.getCache s.h (pick s.h)).1) t (by intro d hd; cases hd; exact hlt)
  have gd := A.good
  rw [hb] at gd
  have f2 : Frame s.h [] (Heap.getValue (Heap.getCache s.h (pick s.h)).2 (some (Heap.getCache s.h (pick s.h)).1) t).2 := f1.trans (A.toGrows.frame []) (by simp)
  have hw := f1.avail _ A.was
  unfold newRoot
  split
  · exact ⟨_, rfl, rfl, rfl, rfl, gd, A.ge, f2, hw⟩
  · rw [← e] at gd f2 hw A
    exact ⟨_, rfl, rfl, rfl, rfl, gd, A.ge, f2, hw⟩

theorem Rel.start (a : Rel r0 s m) (t : VT) (ht : (constOf t).isNone) (hb : ∀ c, blankVal t c = blankVal t 0) :
    Rel r0 (if s.p.stack = [] then newRoot pick t s else s) (m.start t) ∧ (m.start t).stack ≠ [] := by
  have hiff : s.p.stack = [] ↔ m.stack = [] := by
    rcases a.made with ⟨-, -, h1, -, -, h2⟩ | ⟨r, v, F, -, -, -, -, h, -⟩
    · simp [h1, h2]
    · exact h.empty
  by_cases he : s.p.stack = []
  · rw [if_pos he]
    unfold PSt.start
    rw [if_pos (hiff.1 he)]
    refine ⟨?_, by simp⟩
    obtain ⟨r, h1, h2, h3, h4, g, h5, fr, hav⟩ := newRoot_new (pick := pick) a.ok.1 t ht hb
    refine ⟨newRoot_ok a.ok.1 pick t, h3.trans a.first, h4.trans a.last, Or.inr ⟨r, _, _, h1, rfl, g, h5, ?_, ?_⟩⟩
    · rw [h2]; exact Or.inr ⟨⟨rfl, rfl⟩, rfl⟩
    · intro p hp
      rcases a.made with ⟨h, -⟩ | ⟨r', v, F, e1, e2, g', h5', -, hk⟩
      · rw [hp] at h; cases h
      · right
        have keep : ∀ {p v0 F0}, Good s.h (some p) v0 F0 → Good (newRoot pick t s).h (some p) v0 F0 ∧ ∀ q ∈ F0, q ∉ [r] := by
          intro p v0 F0 g0
          refine ⟨g0.frame fr (by simp), fun q hq hr => ?_⟩
          simp at hr; subst hr
          exact g0.live _ hq hav
        rcases hk p hp with ⟨h, rfl⟩ | ⟨v0, F0, h, g0, -⟩
        · exact ⟨v, F, by simp [h, e2], (keep g').1, (keep g').2⟩
        · exact ⟨v0, F0, by simp [h], (keep g0).1, (keep g0).2⟩
  · rw [if_neg he]
    unfold PSt.start
    rw [if_neg (fun h => he (hiff.2 h))]
    exact ⟨a, fun h => he (hiff.2 h)⟩

/-- The value that is being filled, and what follows when it has been. -/
theorem Rel.top (a : Rel r0 s m) (hne : m.stack ≠ []) : ∃ n l w F, s.p.stack = n :: l ∧ m.top = some w ∧ m.stack.head?.map (·.isMap) = some n.isMap ∧ Good s.h (some n.v) w F ∧ 5 ≤ n.v ∧
    ∀ s' w' up x, LineR s n.v F x s' w' up → SOk s' → Rel r0 s' (m.fill w' up x) := by
  rcases a.made with ⟨-, -, -, -, -, h⟩ | ⟨r, v, F, e1, e2, g, h5, hst, hk⟩
  · exact absurd h hne
  · have hst := hst.resolve_left (fun h => hne h.2)
    obtain ⟨n, l, k, l', en, ek, hf⟩ := hst.cons
    rw [en, ek] at hst
    obtain ⟨w, Fq, hsub, gq, h5n, hs, hr, hu⟩ := downX g h5 hst
    refine ⟨n, l, w, Fq, en, ?_, by rw [ek]; simp [hf.1], gq, h5n, ?_⟩
    · unfold PSt.top
      rw [e2, ek]
      exact hsub
    · rintro s' w' up x ⟨⟨F', u⟩, up', us, hp, hups⟩ ok
      obtain ⟨F2, u2⟩ := hu _ _ _ u
      refine ⟨ok, by rw [hp]; rfl, by rw [hp]; exact a.last, Or.inr ⟨r, _, F2, by rw [hp]; exact e1, ?_, u2.good, h5, Or.inr ?_, ?_⟩⟩
      · simp only [PSt.fill, e2, ek, Option.map_some]
      · rw [hp]
        simp only [PSt.fill, en, ek]
        refine Stk.push (Stk.congr (fun y hy => ?_) hst) hups
        obtain ⟨h1, h2, h3⟩ := hr y hy
        exact u.frame.mem _ h1 h3 (g.live _ h2)
      · intro p hp
        rcases hk p hp with h | ⟨v0, F0, h, g0, hd⟩
        · exact Or.inl h
        · refine Or.inr ⟨v0, F0, h, g0.frame u2.frame hd, fun q hq hq2 => ?_⟩
          rcases u2.sub q hq2 with h | h | h
          · exact hd q hq h
          · simp at h
          · exact g0.live q hq h

theorem parseArray_sim {line : Bytes} {sp : Int} (a : Rel r0 s m) (hs : 42 ∉ line) :
    RSim (Rel r0) (parseArray E pick k line sp s) (parrLine E line sp m) := by
  unfold parrLine
  have hok := fun s' => parseArray_ok (E := E) (k := k) (pick := pick) (line := line) (sp := sp) (s' := s') a.ok
  rw [parseArray_eq, a.last] at hok ⊢
  split
  · rfl
  rename_i hne
  rw [if_neg hne] at hok
  obtain ⟨b, hne⟩ := a.start (pick := pick) .array rfl (fun _ => rfl)
  have e : (if s.p.stack = [] then newRoot pick .array s else s) = arrStart pick s := rfl
  rw [e] at b
  have ho := b.ok
  generalize arrStart pick s = s1 at b ho hok
  generalize m.start .array = m1 at b hne
  obtain ⟨n, l, w, F, h1, h2, -, g, h5, hk⟩ := b.top hne
  rw [h1] at hok
  rw [h1, h2]
  simp only [List.head?_cons] at hok ⊢
  rw [← b.first]
  have H := arrBody_sim (E := E) (k := k) (l := trim line) (sp := sp) g h5 ho (fun hm => hs (trim_sub hm))
  have H' := H.with.bind (f := .ok) (g := fun x => .ok (m1.fill x.1 x.2.1 x.2.2)) (Q := Rel r0) (fun s' x hx => hk s' _ _ _ hx.1 (hok s' hx.2))
  rw [bind_same] at H'
  exact H'

theorem parseObject_sim {line : Bytes} {sp : Int} (a : Rel r0 s m) (hs : 42 ∉ line) :
    RSim (Rel r0) (parseObject E pick k line sp s) (pobjLine E line sp m) := by
  unfold pobjLine
  have hok := fun s' => parseObject_ok (E := E) (k := k) (pick := pick) (line := line) (sp := sp) (s' := s') a.ok
  rw [parseObject_eq] at hok ⊢
  have hemp : s.p.stack.isEmpty = m.stack.isEmpty := by
    have : s.p.stack = [] ↔ m.stack = [] := by
      rcases a.made with ⟨-, -, h1, -, -, h2⟩ | ⟨r, v, F, -, -, -, -, h, -⟩
      · simp [h1, h2]
      · exact h.empty
    rw [Bool.eq_iff_iff]; simpa using this
  obtain ⟨b, hne⟩ := a.start (pick := pick) .object rfl (fun _ => rfl)
  have e : (if s.p.stack = [] then newRoot pick .object s else s) = objStart pick s := rfl
  rw [e] at b
  rw [hemp] at hok ⊢
  have ho := b.ok
  generalize objStart pick s = s1 at b ho hok
  generalize m.start .object = m1 at b hne
  generalize m.stack.isEmpty = empty at hok
  obtain ⟨n, l, w, F, h1, h2, hmap, g, h5, hk⟩ := b.top hne
  rw [h1] at hok
  rw [h1, h2, hmap]
  simp only [List.head?_cons] at hok ⊢
  rw [← b.first, ← b.last]
  simp only [Option.some.injEq]
  generalize (if empty = false ∧ s1.p.first = true ∧ n.isMap = true then s1.p.last + 2 else s1.p.last) = last at hok
  have H := objBody_sim (E := E) (k := k) (s := { s1 with p := { s1.p with first := false } }) (line := line) (sp := sp) (last := last) (empty := empty) g h5 (ho.par rfl) hs
  have H' := H.with.bind (f := .ok) (g := fun x => .ok (m1.fill x.1 x.2 false)) (Q := Rel r0) (by
    rintro s' x ⟨hx, e⟩
    refine hk s' _ _ _ ?_ (hok s' e)
    obtain ⟨h1, up, u, hp, h2⟩ := hx
    exact ⟨h1, up, u, hp, h2⟩)
  rw [bind_same] at H'
  exact H'

theorem Rel.last_set (a : Rel r0 s m) (x : Int) : Rel r0 { s with p := { s.p with last := x } } { m with last := x } :=
  ⟨a.ok.par rfl, a.first, rfl, a.made⟩

/-- Levels are closed. -/
theorem Rel.closed (a : Rel r0 s m) (last : Int) (sp : Nat) :
    Rel r0 { s with p := { s.p with stack := if last > sp then closeTo sp (s.p.stack.drop 2) else if last = sp then s.p.stack.drop 1 else s.p.stack } }
      { m with stack := if last > sp then pclose sp (m.stack.drop 2) else if last = sp then m.stack.drop 1 else m.stack } := by
  refine ⟨a.ok.par rfl, a.first, a.last, ?_⟩
  rcases a.made with ⟨h0, h1, h2, h3, h4, h5⟩ | ⟨r, v, F, h1, h2, h3, h4, h5, h6⟩
  · left
    refine ⟨h0, h1, ?_, h3, h4, ?_⟩
    · simp [h2, closeTo]
    · simp [h5, pclose]
  · right
    refine ⟨r, v, F, h1, h2, h3, h4, ?_, h6⟩
    split
    · exact Stk0.close _ h5.drop2
    split
    · exact h5.drop1
    · exact h5

/-- One line. -/
theorem parseLine_sim {line : Bytes} {sp : Nat} (a : Rel r0 s m) (hs : 42 ∉ line) : RSim (Rel r0) (parseLine E pick k line sp s) (pline E line sp m) := by
  unfold parseLine pline
  dsimp only
  cases hc : (line.drop sp).head? with
  | none => trivial
  | some c =>
    dsimp only
    split
    · exact a
    have hs' : 42 ∉ cutComment (line.drop sp) := fun h => hs (List.mem_of_mem_drop (cutComment_sub h))
    have hmap : s.p.stack.head?.map (·.isMap) = m.stack.head?.map (·.isMap) := by
      rcases a.made with ⟨-, -, h1, -, -, h2⟩ | ⟨r, v, F, -, -, -, -, h, -⟩
      · simp [h1, h2]
      · exact h.isMap
    have hlast : (if s.p.first = true ∧ (s.p.stack.head?.map (·.isMap)) = some true then s.p.last + 2 else s.p.last) =
        (if m.first = true ∧ (m.stack.head?.map (·.isMap)) = some true then m.last + 2 else m.last) := by rw [a.first, a.last, hmap]
    rw [hlast]
    generalize (if m.first = true ∧ (m.stack.head?.map (·.isMap)) = some true then m.last + 2 else m.last) = last
    have b := a.closed last sp
    generalize ({ s with p := { s.p with stack := if last > sp then closeTo sp (s.p.stack.drop 2) else if last = sp then s.p.stack.drop 1 else s.p.stack } } : St) = s1 at b
    generalize ({ m with stack := if last > sp then pclose sp (m.stack.drop 2) else if last = sp then m.stack.drop 1 else m.stack } : PSt) = m1 at b
    split
    · refine (parseArray_sim b (fun h => hs' (List.mem_of_mem_drop h))).bind (fun s' m' h => ?_)
      exact h.last_set _
    · refine (parseObject_sim b hs').bind (fun s' m' h => ?_)
      exact h.last_set _

theorem parseLoop_sim {data : Bytes} (hs : 42 ∉ data) : ∀ (f i : Nat) {s : St} {m : PSt}, Rel r0 s m → RSim (Rel r0) (parseLoop E pick k data f i s) (ploop E data f i m)
  | 0, _, _, _, _ => trivial
  | f + 1, i, s, m, a => by
    unfold parseLoop ploop
    dsimp only
    generalize (if ((data.drop i).takeWhile (· != 10)).length < (data.drop i).length then i + ((data.drop i).takeWhile (· != 10)).length else data.length) = stop
    split
    · split
      · exact a
      · exact parseLoop_sim hs f _ a
    · have hl : 42 ∉ (data.drop i).takeWhile (· != 10) := fun h => hs (List.mem_of_mem_drop ((List.takeWhile_sublist _).mem h))
      refine (parseLine_sim a hl).bind (fun s' m' h => ?_)
      split
      · exact h
      · exact parseLoop_sim hs f _ h

/-- The parser in memory does what the parser on trees does. -/
theorem parse_sim {data : Bytes} (hs : 42 ∉ data) (f : Nat) (a : Rel r0 s m) : RSim (Rel r0) (parse E pick f data s) (pparse E f data m) := by
  unfold parse pparse
  split
  · exact a
  · exact parseLoop_sim hs f 0 (a.last_set _)

end

end Dxs.Yaml
