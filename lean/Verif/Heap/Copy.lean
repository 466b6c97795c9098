import Verif.Heap.Model

/-!
# Binary values, Clone, Equal, MergeWith (bin_value.go, dxvalue.go:405-635)

Values may be cyclic in memory (a value can be stored inside itself with `SetKeyValue`), so the recursive functions take a
fuel; `.loop` means it did not suffice.

Simplifications:
* `SetBinary(b, false)` keeps the caller's slice; here the bytes are copied.
* The loops of `clone` read the source's member list once and append a member when its copy is complete: they write only into
  nodes that `clone` has just made, and the source is not one of these.
* The slot that `AddFrom` and `CopyFrom` take for a new member (`getKv`, dxvalue.go:48-56) holds nil. In the code it can hold
  the value of a member removed earlier (`RemoveKey` and `ExtractValue` leave the last slot as it is); it is seen only when the
  target is part of what is copied.
* The callback of `MergeWith` decides from what it is given and the memory, and changes nothing.
-/

namespace Dxs.Heap

/-! ## bin_value.go -/

/-- `BinExtType`, bin_value.go:9-14. -/
def binExtType (n : Node) : UInt8 := if n.dt = .exBinary then n.bin.headD 0 else 0

/-- `BinLen`, bin_value.go:16-28. -/
def binLen (n : Node) : Nat :=
  match n.dt with
  | .exBinary => n.bin.tail.length
  | .binary => n.bin.length
  | _ => 0

/-- `SetExtType`, bin_value.go:30-38. -/
def setExtType (h : Heap) (p : Ptr) (t : UInt8) : Heap :=
  if (h.mem p).dt = .exBinary then h.upd p (fun n => { n with bin := t :: n.bin.tail }) else h

/-- `Binary`, bin_value.go:40-52. -/
def getBinary (n : Node) : Bytes :=
  match n.dt with
  | .binary => n.bin
  | .exBinary => n.bin.tail
  | _ => []

/-- `SetBinary`, bin_value.go:54-75. -/
def setBinary (h : Heap) (p : Ptr) (b : Bytes) : Heap :=
  match (h.mem p).dt with
  | .binary => h.upd p (fun n => { n with bin := b })
  | .exBinary =>
    match (h.mem p).bin with
    | t :: _ => h.upd p (fun n => { n with bin := t :: b })
    | [] => (reset h p .binary).upd p (fun n => { n with bin := b })
  | _ => h

/-! ## Clone -/

/-- The loop dxvalue.go:567-571: clone the members one by one and append them to `r`. -/
def cloneM (rec : Heap → Option Ptr → Res (Ptr × Heap)) (r : Ptr) : Heap → List (Bytes × Option Ptr) → Res Heap
  | h, [] => .ok h
  | h, kv :: kvs => do
    let (q, h) ← rec h kv.2
    cloneM rec r (h.upd r (fun n => { n with kvs := n.kvs ++ [(kv.1, some q)] })) kvs

/-- The loop dxvalue.go:573-575. -/
def cloneL (rec : Heap → Option Ptr → Res (Ptr × Heap)) (r : Ptr) : Heap → List (Option Ptr) → Res Heap
  | h, [] => .ok h
  | h, x :: xs => do
    let (q, h) ← rec h x
    cloneL rec r (h.upd r (fun n => { n with arr := n.arr ++ [some q] })) xs

/-- `clone`, dxvalue.go:553-578; of nil it panics. -/
def clone : Nat → Heap → Option Ptr → Option CId → Res (Ptr × Heap)
  | 0, _, _, _ => .loop
  | _ + 1, _, none, _ => .panic
  | f + 1, h, some p, c =>
    if (h.mem p).dt.ord ≥ 11 then .ok (p, h)
    else
      let (r, h) := getValue h c (h.mem p).dt
      let n := h.mem p
      match n.dt with
      | .int | .float | .double | .dateTime => .ok (r, h.upd r (fun m => { m with cell := n.cell }))
      | .string | .rawString => .ok (r, h.upd r (fun m => { m with str := n.str }))
      | .object => do
        let h ← cloneM (fun h q => clone f h q c) r (h.upd r (fun m => { m with ku := n.ku })) n.kvs
        .ok (r, h)
      | .array => do
        let h ← cloneL (fun h q => clone f h q c) r h n.arr
        .ok (r, h)
      | _ => .ok (r, h)

/-- `Clone`, dxvalue.go:627-635. -/
def cloneTop (f : Nat) (h : Heap) (p : Ptr) (cached : Bool) (pick : Option Nat) : Res (Ptr × Heap) :=
  if cached then let (c, h) := getCache h pick; clone f h (some p) (some c) else clone f h (some p) none

/-- The loops dxvalue.go:587-591 and 608-612 from member `i` on. The source's members are read anew in each round, and the slot of the
new member is there, with no value, while the value is cloned. -/
def addM (rec : Heap → Option Ptr → Res (Ptr × Heap)) (p s : Ptr) : Nat → Nat → Heap → Res Heap
  | 0, _, _ => .loop
  | n + 1, i, h =>
    match (h.mem s).kvs[i]? with
    | none => .ok h
    | some kv => do
      let j := (h.mem p).kvs.length
      let (q, h) ← rec (h.upd p (fun m => { m with kvs := m.kvs ++ [(kv.1, none)] })) kv.2
      addM rec p s n (i + 1) (h.upd p (fun m => { m with kvs := m.kvs.modify j (fun x => (x.1, some q)) }))

/-- The loops dxvalue.go:594-596 and 615-617 from element `i` on. -/
def addL (rec : Heap → Option Ptr → Res (Ptr × Heap)) (p s : Ptr) : Nat → Nat → Heap → Res Heap
  | 0, _, _ => .loop
  | n + 1, i, h =>
    match (h.mem s).arr[i]? with
    | none => .ok h
    | some x => do
      let (q, h) ← rec h x
      addL rec p s n (i + 1) (h.upd p (fun m => { m with arr := m.arr ++ [some q] }))

/-- `AddFrom`, dxvalue.go:580-598. The loops have fuel for all members of the source and `f` more. -/
def addFrom (f : Nat) (h : Heap) (p : Ptr) (from_ : Option Ptr) (c : Option CId) : Res Heap :=
  match from_ with
  | none => .panic
  | some s =>
    match (h.mem s).dt with
    | .object =>
      let c := c.or (h.mem p).owner
      addM (fun h q => clone f h q c) p s ((h.mem s).kvs.length + f + 1) 0 (h.upd p (fun m => { m with ku := (h.mem s).ku }))
    | .array =>
      let c := (h.mem p).owner
      addL (fun h q => clone f h q c) p s ((h.mem s).arr.length + f + 1) 0 h
    | _ => .ok h

/-- `CopyFrom`, dxvalue.go:600-625. -/
def copyFrom (f : Nat) (h : Heap) (p : Ptr) (from_ : Option Ptr) (c : Option CId) : Res Heap :=
  match from_ with
  | none => .panic
  | some s =>
    let h := reset h p (h.mem s).dt
    match (h.mem s).dt with
    | .object =>
      let c := c.or (h.mem p).owner
      addM (fun h q => clone f h q c) p s ((h.mem s).kvs.length + f + 1) 0 (h.upd p (fun m => { m with ku := (h.mem s).ku }))
    | .array =>
      let c := (h.mem p).owner
      addL (fun h q => clone f h q c) p s ((h.mem s).arr.length + f + 1) 0 h
    | .string | .rawString => .ok (h.upd p (fun m => { m with str := (h.mem s).str }))
    | _ =>
      if 4 ≤ (h.mem p).dt.ord ∧ (h.mem p).dt.ord ≤ 7 then .ok (h.upd p (fun m => { m with cell := (h.mem s).cell })) else .ok h

/-! ## Equal -/

/-- The loop dxvalue.go:507-512; both lists have the same length. -/
def equalM (rec : Heap → Option Ptr → Option Ptr → Res (Bool × Heap)) :
    Heap → List (Bytes × Option Ptr) → List (Bytes × Option Ptr) → Res (Bool × Heap)
  | h, x :: xs, y :: ys =>
    if x.1 ≠ y.1 then .ok (false, h)
    else do
      let (b, h) ← rec h x.2 y.2
      if b then equalM rec h xs ys else .ok (false, h)
  | h, _, _ => .ok (true, h)

/-- The loop dxvalue.go:517-521; the length test before it compares a list with itself, so the second list may be shorter
(index out of range) or longer. -/
def equalL (rec : Heap → Option Ptr → Option Ptr → Res (Bool × Heap)) :
    Heap → List (Option Ptr) → List (Option Ptr) → Res (Bool × Heap)
  | h, [], _ => .ok (true, h)
  | _, _ :: _, [] => .panic
  | h, x :: xs, y :: ys => do
    let (b, h) ← rec h x y
    if b then equalL rec h xs ys else .ok (false, h)

/-- `UnEscapestrs`, dxvalue.go:135-144. -/
def unescAll (E : Env) (h : Heap) (p : Ptr) : Heap :=
  h.upd p (fun n => { n with ku := true, kvs := unescKeys E n.ku n.kvs })

/-- `Equal`, dxvalue.go:478-529. Strings and keys are unescaped in place on the way. -/
def equal (E : Env) : Nat → Heap → Option Ptr → Option Ptr → Res (Bool × Heap)
  | 0, _, _, _ => .loop
  | _ + 1, h, none, none => .ok (true, h)
  | _ + 1, h, none, some _ => .ok (false, h)
  | _ + 1, h, some _, none => .ok (false, h)
  | f + 1, h, some p, some q =>
    let t := (h.mem p).dt
    let u := (h.mem q).dt
    if t ≠ u then
      if (t = .string ∧ u = .rawString) ∨ (u = .string ∧ t = .rawString) then
        let h := h.set p (getString E .panic (h.mem p)).2
        let h := h.set q (getString E .panic (h.mem q)).2
        .ok (E.equalFold (h.mem p).str (h.mem q).str, h)
      else if 4 ≤ t.ord ∧ t.ord ≤ 6 ∧ 4 ≤ u.ord ∧ u.ord ≤ 6 then
        .ok (E.f64eq (getDouble E (h.mem p)) (getDouble E (h.mem q)), h)
      else .ok (false, h)
    else
      match t with
      | .string | .rawString => .ok ((h.mem p).str == (h.mem q).str, h)
      | .binary | .exBinary => .ok ((h.mem p).bin == (h.mem q).bin, h)
      | .object =>
        if (h.mem p).kvs.length ≠ (h.mem q).kvs.length then .ok (false, h)
        else
          let h := unescAll E (unescAll E h p) q
          equalM (fun h a b => equal E f h a b) h (h.mem p).kvs (h.mem q).kvs
      | .array => equalL (fun h a b => equal E f h a b) h (h.mem p).arr (h.mem q).arr
      | _ =>
        if t.ord ≥ 9 then .ok (true, h)
        else .ok ((h.mem p).cell == (h.mem q).cell, h)

/-! ## MergeWith -/

/-- `MergeOp`, dxvalue.go:405-410; `custom` stands for every byte other than 1 and 2. -/
inductive MergeOp where
  | custom | replace | normal
deriving DecidableEq, Repr

/-- `MergeFunc`, dxvalue.go:412. -/
def MergeFunc := Heap → Bytes → Option Ptr → Option Ptr → MergeOp

/-- The path handed to the callback and kept for the rest of the run, dxvalue.go:420-423. -/
def mergePath (path k : Bytes) : Bytes := (if path ≠ [] then path ++ [47] else path) ++ k

/-- `mergeObject`, dxvalue.go:414-447, from member `i` of `w` on. -/
def mergeObject (E : Env) (mf : Option MergeFunc) : Nat → Heap → Bytes → Ptr → Ptr → Nat → Res Heap
  | 0, _, _, _, _, _ => .loop
  | f + 1, h, path, v, w, i =>
    match (h.mem w).kvs[i]? with
    | none => .ok h
    | some (k, _) =>
      let (idx, h) := objIndex E h v k
      let k := (((h.mem w).kvs[i]?).map Prod.fst).getD []
      let b := ((h.mem w).kvs[i]?).bind Prod.snd
      match idx with
      | none => do
        let (q, h) ← clone f h b none
        mergeObject E mf f (setKeyValue E h v k (some q)) path v w (i + 1)
      | some idx =>
        let a := ((h.mem v).kvs[idx]?).bind Prod.snd
        let path := if mf.isSome then mergePath path k else path
        match (mf.map (fun g => g h path a b)).getD .normal with
        | .custom => mergeObject E mf f h path v w (i + 1)
        | .replace =>
          match a with
          | none => .panic
          | some a => do
            let h := reset h a .null
            let (q, h) ← clone f h b none
            mergeObject E mf f (h.upd v (fun n => { n with kvs := n.kvs.modify idx (fun kv => (kv.1, some q)) })) path v w (i + 1)
        | .normal =>
          match a with
          | none => .panic
          | some a =>
            if (h.mem a).dt = .object ∨ (h.mem a).dt = .array then
              match b with
              | none => .panic
              | some b => mergeObject E mf f h path a b 0
            else do
              let (o, h) ← clone f h (some a) none
              let h := reset h a .array
              let h := setIndexValue h a 0 (some o)
              let (q, h) ← clone f h b none
              mergeObject E mf f (setIndexValue h a 1 (some q)) path v w (i + 1)

/-- The search dxvalue.go:463-468. -/
def memberL (rec : Heap → Option Ptr → Option Ptr → Res (Bool × Heap)) : Heap → Option Ptr → List (Option Ptr) → Res (Bool × Heap)
  | h, _, [] => .ok (false, h)
  | h, x, y :: ys => do
    let (b, h) ← rec h x y
    if b then .ok (true, h) else memberL rec h x ys

/-- The loop dxvalue.go:460-472: the clones to be added. -/
def mergeArr (E : Env) (f : Nat) : Heap → List (Option Ptr) → List (Option Ptr) → Res (List Ptr × Heap)
  | h, _, [] => .ok ([], h)
  | h, ys, x :: xs => do
    let (b, h) ← memberL (fun h a b => equal E f h a b) h x ys
    if b then mergeArr E f h ys xs
    else do
      let (q, h) ← clone f h x none
      let (qs, h) ← mergeArr E f h ys xs
      .ok (q :: qs, h)

/-- `MergeWith`, dxvalue.go:449-476. -/
def mergeWith (E : Env) (mf : Option MergeFunc) (f : Nat) (h : Heap) (v w : Option Ptr) : Res Heap :=
  match v, w with
  | some v, some w =>
    if (h.mem w).dt ≠ (h.mem v).dt ∨ (h.mem v).dt.ord > 1 then .ok h
    else if (h.mem v).dt = .object then mergeObject E mf f h [] v w 0
    else do
      let (qs, h) ← mergeArr E f h (h.mem v).arr (h.mem w).arr
      .ok (h.upd v (fun n => { n with arr := n.arr ++ qs.map some }))
  | _, _ => .ok h

end Dxs.Heap
