import Verif.Heap.Read
import Verif.Load.Prog
import Verif.Bson.Model
import Verif.MsgPack.Model

/-!
# Programs that look at what they have made

The getters as statements of a program: what they answer goes to the output of the program.

Simplifications:
* `ToMsgPack`, `ToJson`, `ToBson` and `String` of a container read the tree from the memory and write it (`seenAt`). What `ToJson` without escapes and `ToBson` change
  on the way (`soften`) is done afterwards. If the writer panics there is no memory afterwards.
* `Equal` of two positions of one variable is performed only if nothing is to be unescaped in them (it changes the others, see C38, and the two positions may overlap).
-/

namespace Dxs.Heap

/-- What a getter answers. -/
inductive Ans (τ : Type) where
  | num (x : BitVec 64) | num32 (x : BitVec 32) | flag (b : Bool) | text (b : Bytes) | time (t : τ) | size (n : Nat) | kind (t : VT) | byte (x : UInt8)
deriving DecidableEq

/-- The getters. -/
inductive Get where
  /-- `Type()` -/
  | type
  /-- `Count()` -/
  | count
  | int | double | float | bool | string | binary | binLen | binExtType | dateTime | goTime
  | duration (dflt : BitVec 64)
  /-- `ToMsgPack(nil)` -/
  | msgPack
  /-- `ToJson(format, style, escapeDatetime, nil)` -/
  | json (format : Bool) (st : Json.Style) (escDT : Bool)
  /-- `ToBson(nil)` -/
  | bson

/-- A question about a value. -/
inductive Ask (τ : Type) where
  /-- `node.Get()` -/
  | here (g : Get)
  /-- `node.GetByPath(dflt, path...)`, `node.AsGet(name, dflt)`, `node.GetByName(name, dflt)`; also `ValueByPath` and then the getter -/
  | path (path : List Bytes) (dflt : Ans τ) (g : Get)
  /-- `node.GetByIndex(i, dflt)` -/
  | index (i : Int) (dflt : Ans τ) (g : Get)
  /-- `node.KeyNameByIndex(i)` -/
  | keyName (i : Int)
  /-- the name `node.Items(i)` gives -/
  | item (i : Int)

/-- The tree in the memory. The numbers of the nodes in use bound its height. -/
def seenAt (h : Heap) (p : Ptr) : Option Val := valOf (h.next + 1) h.mem (some p)

/-- A writer at work. -/
def written {α : Type} (h : Heap) (p : Ptr) (f : Val → Res α) : Res α :=
  match seenAt h p with
  | some v => f v
  | none => .loop

/-- The children, one after the other; the loops `for i := 0; i < len(...); i++` of the writers. -/
def softenKids (rec : Heap → Ptr → Heap) (p : Ptr) : Nat → Nat → Heap → Heap
  | 0, _, h => h
  | n + 1, i, h =>
    softenKids rec p n (i + 1)
      (match (Node.kids (h.mem p))[i]? with
      | some (some q) => rec h q
      | _ => h)

/-- What the writers change. `ToBson` (`full`): the names (bson_parse.go:285) and the strings (bson_parse.go:373) are unescaped. `ToJson` with `JSE_NoEscape`: the names of
the objects that have members are (jsonparse.go:662-664, 761-763; `UnEscapestrs` does nothing the second time, dxvalue.go:135-144). -/
def soften (E : Env) (full : Bool) : Nat → Heap → Ptr → Heap
  | 0, h, _ => h
  | f + 1, h, p =>
    match (h.mem p).dt with
    | .object => softenKids (soften E full f) p (h.mem p).kvs.length 0 (if full || !(h.mem p).kvs.isEmpty then unescAll E h p else h)
    | .array => softenKids (soften E full f) p (h.mem p).arr.length 0 h
    | .rawString => if full then h.set p (getString E .panic (h.mem p)).2 else h
    | _ => h

/-- A getter: the answer and the memory afterwards. `Type` dxvalue.go:355-357, `ToJson`, `ToMsgPack`, `ToBson` dxvalue.go:383-403, the others see
`Heap/Model.lean`, `Heap/Read.lean`, `Heap/Copy.lean`. -/
def Get.run {τ : Type} (E : Env) (C : Clock τ) (h : Heap) (p : Ptr) : Get → Res (Ans τ) × Heap
  | .type => (.ok (.kind (h.mem p).dt), h)
  | .count => (.ok (.size (Heap.count (h.mem p))), h)
  | .int => (.ok (.num (getInt E (h.mem p))), h)
  | .double => (.ok (.num (getDouble E (h.mem p))), h)
  | .float => (.ok (.num32 (getFloat E (h.mem p))), h)
  | .bool => (.ok (.flag (getBool E (h.mem p))), h)
  | .string => ((getString E (written h p (Json.value2FormatJson E .onlyAnsi false)) (h.mem p)).1.bind (fun b => .ok (.text b)),
      h.set p (getString E (written h p (Json.value2FormatJson E .onlyAnsi false)) (h.mem p)).2)
  | .binary => (.ok (.text (getBinary (h.mem p))), h)
  | .binLen => (.ok (.size (Heap.binLen (h.mem p))), h)
  | .binExtType => (.ok (.byte (Heap.binExtType (h.mem p))), h)
  | .dateTime => (.ok (.num (getDateTime E C (h.mem p))), h)
  | .goTime => (.ok (.time (getGoTime E C (h.mem p))), h)
  | .duration d => (.ok (.num (getDuration E C (h.mem p) d).1), h.set p (getDuration E C (h.mem p) d).2)
  | .msgPack => (written h p (fun v => .ok (.text (MsgPack.value2MsgPack E v))), h)
  | .json f st d => (written h p (fun v => (if f then Json.value2FormatJson E st d v else Json.value2Json E st d v).bind (fun b => .ok (.text b))),
      if st = .noEscape then soften E false (h.next + 1) h p else h)
  | .bson => (written h p (fun v => (Bson.toBson E v []).bind (fun b => .ok (.text b))), soften E true (h.next + 1) h p)

/-- A question: the answer and the memory afterwards. `XByPath` dxvalue.go:1053-1124, `AsX` 760-786, `XByName` 363-381, 531-533, `XByIndex` 1263-1301, `KeyNameByIndex`
1317-1324, `Items` 799-812. -/
def Ask.run {τ : Type} (E : Env) (C : Clock τ) (h : Heap) (p : Ptr) : Ask τ → Res (Ans τ) × Heap
  | .here g => g.run E C h p
  | .path ps d g =>
    match valueByPath E h p ps with
    | (none, h) => (.ok d, h)
    | (some q, h) => g.run E C h q
  | .index i d g =>
    match valueByIndex (h.mem p) i with
    | none => (.ok d, h)
    | some q => g.run E C h q
  | .keyName i => (.ok (.text (keyNameByIndex (h.mem p) i)), h)
  | .item i => (.ok (.text (items E h p i).1.1), (items E h p i).2)

/-- One statement of a program with output. -/
inductive OCmd (τ : Type) where
  /-- a statement without output -/
  | run (c : PCmd)
  /-- `print(question)` -/
  | ask (i : Nat) (π : List Nat) (a : Ask τ)
  /-- `print(node.Equal(node'))`; `f` bounds the depth -/
  | same (i : Nat) (π : List Nat) (j : Nat) (ρ : List Nat) (f : Nat)

/-- Nothing is to be unescaped in the tree at a node. -/
def calm (h : Heap) (p : Ptr) : Bool :=
  match seenAt h p with
  | some v => settled v
  | none => false

/-- Perform a statement: what it prints, and the state afterwards. Left out: `Equal` within one value while something is to be unescaped in it; it prints nothing then. -/
def OCmd.exec {τ : Type} (E : Env) (C : Clock τ) (s : St) : OCmd τ → Res (List (Ans τ) × St)
  | .run c => do
    let s ← c.exec E s
    .ok ([], s)
  | .ask i π a => do
    let q ← s.walk i π
    let x ← (a.run E C s.heap q).1
    .ok ([x], { s with heap := (a.run E C s.heap q).2 })
  | .same i π j ρ f => do
    let p ← s.walk i π
    let q ← s.walk j ρ
    if i ≠ j ∨ (calm s.heap p && calm s.heap q) = true then do
      let r ← equal E f s.heap (some p) (some q)
      .ok ([.flag r.1], { s with heap := r.2 })
    else .ok ([], s)

/-- Perform a program: all that it prints, and the state afterwards. -/
def oexecAll {τ : Type} (E : Env) (C : Clock τ) : St → List (OCmd τ) → Res (List (Ans τ) × St)
  | s, [] => .ok ([], s)
  | s, c :: cs => do
    let (o, s) ← c.exec E C s
    let (os, s) ← oexecAll E C s cs
    .ok (o ++ os, s)

end Dxs.Heap
