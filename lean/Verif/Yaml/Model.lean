import Verif.Heap.Copy

/-!
# The YAML parser (yamlparse.go)

The parser works on the memory of nodes: it keeps a stack of pointers to the values that are being filled.

Simplifications:
* `lastOpifMerge` is written but never read, it is left out.
* `bytes.TrimFunc` works on runes; the three it removes are single bytes, so removing bytes gives the same.
* An empty slice of `splitKv` is nil there (`TrimFunc` returns nil for nothing), so `value != nil` means not empty.
* `usecache` decides between `getCache` + `getValue` and `NewObject(true)`/`NewArray(true)`, which do the same; both are
  modelled.
* `pick` decides, from the memory at that moment, what `sync.Pool.Get` returns.
* The fuel `k` bounds `clone`, as in `Heap/Copy.lean`.
* An error carries no memory here; `parseErr` in `Yaml/Keep.lean` gives what `LoadFromYaml` leaves in the value after an error.
-/

namespace Dxs.Yaml

open Dxs.Heap

/-- `spaceTrim`, yamlparse.go:10-12. -/
def isSp (c : UInt8) : Bool := c == 32 || c == 10 || c == 13

/-- `bytes.TrimFunc(b, spaceTrim)`. -/
def trim (b : Bytes) : Bytes := ((b.dropWhile isSp).reverse.dropWhile isSp).reverse

/-- `yamlNode`, yamlparse.go:14-18. -/
structure YNode where
  isMap : Bool
  space : Int
  v : Ptr
deriving DecidableEq, Repr

/-- `yamlParser`, yamlparse.go:20-30. The stack has the last element first. -/
structure Parser where
  first : Bool
  useCache : Bool
  last : Int
  root : Option Ptr
  cache : Option CId
  stack : List YNode
  uses : List (Bytes × Ptr)
deriving DecidableEq, Repr

/-- A parser made by `newyamParser` when the pool is empty, yamlparse.go:42-45. -/
def Parser.fresh : Parser := ⟨false, false, 0, none, none, [], []⟩

/-- `reset`, yamlparse.go:53-66: not everything is reset. -/
def Parser.reset (p : Parser) : Parser := { p with root := none, cache := none, stack := [], uses := [] }

/-- `setCachedUseage`, yamlparse.go:68-76. -/
def setUse (name : Bytes) (v : Ptr) : List (Bytes × Ptr) → List (Bytes × Ptr)
  | [] => [(name, v)]
  | (k, w) :: r => if k = name then (k, v) :: r else (k, w) :: setUse name v r

/-- `getUseage`, yamlparse.go:78-85. -/
def getUse (name : Bytes) (l : List (Bytes × Ptr)) : Option Ptr := (l.find? (fun kv => kv.1 == name)).map Prod.snd

/-- Parser and memory. -/
structure St where
  p : Parser
  h : Heap

/-- `splitKv`, yamlparse.go:401-415. -/
def splitKv (line : Bytes) : Bytes × Bytes × Bool :=
  let l := trim line
  match l.findIdx? (· == 58) with
  | none => (l, [], false)
  | some i =>
    if i + 1 < l.length then
      if l[i + 1]? = some 32 then (trim (l.take i), trim (l.drop (i + 2)), true) else (l, [], false)
    else (trim (l.take i), trim (l.drop (i + 1)), true)

/-- The name after `*` or `&`: up to the first space, yamlparse.go:240-245, 456-462. -/
def refName (v : Bytes) : Bytes := (v.drop 1).takeWhile (· != 32)

/-- `parseStringValue`, yamlparse.go:417-471, on the target `t`; `amp` stands for the branch of `&`. -/
def strVal (E : Env) (k : Nat) (amp : Res St) (s : St) (t : Ptr) (v : Bytes) : Res St :=
  if v = trueBytes then .ok { s with h := setBool s.h t true }
  else if v = [102, 97, 108, 115, 101] then .ok { s with h := setBool s.h t false }
  else
    match E.parseFloat v with
    | some x => .ok { s with h := setDouble s.h t x }
    | none =>
      match v.head? with
      | none => .panic
      | some c =>
        if c = 123 ∧ v.getLast? = some 125 then .ok s
        else if c = 91 ∧ v.getLast? = some 93 then .ok s
        else if c = 38 then amp
        else if c = 42 then
          match getUse (refName v) s.p.uses with
          | none => .ok { s with h := setString s.h t v }
          | some u => do
            let h ← copyFrom k s.h t (some u) s.p.cache
            .ok { s with h := h }
        else .ok { s with h := setString s.h t v }

/-- `parseStringValue` with `isfirst` false, yamlparse.go:438-441. -/
def strVal2 (E : Env) (k : Nat) (s : St) (t : Ptr) (v : Bytes) : Res St :=
  strVal E k (.ok { s with h := setString s.h t v }) s t v

/-- `parseStringValue` with `isfirst` true, yamlparse.go:442-454. -/
def strVal1 (E : Env) (k : Nat) (s : St) (t : Ptr) (v : Bytes) : Res St :=
  strVal E k (
    match v.findIdx? (· == 32) with
    | none => .ok { s with h := setString s.h t [] }
    | some i =>
      let s := { s with p := { s.p with uses := setUse ((v.take i).drop 1) t s.p.uses } }
      let w := trim (v.drop (i + 1))
      if w = [] then .ok { s with h := setString s.h t [] } else strVal2 E k s t w) s t v

/-- The new root, yamlparse.go:115-124, 264-273. -/
def newRoot (pick : Heap → Option Nat) (t : VT) (s : St) : St :=
  if s.p.useCache then
    let (c, h) := getCache s.h (pick s.h)
    let (r, h) := Heap.getValue h (some c) t
    { p := { s.p with cache := some c, root := some r, stack := [⟨false, -1, r⟩] }, h := h }
  else
    let (r, h) := newCacheValue s.h t (pick s.h)
    { p := { s.p with cache := (h.mem r).owner, root := some r, stack := [⟨false, -1, r⟩] }, h := h }

/-- Push, yamlparse.go:138, 166, 310 and others. -/
def push (s : St) (m : Bool) (sp : Int) (q : Ptr) : St := { s with p := { s.p with stack := ⟨m, sp, q⟩ :: s.p.stack } }

/-- `currentValue.SetKeyCached(k, tp, parser.fparentCache)`. -/
def putKey (E : Env) (s : St) (cur : Ptr) (k : Bytes) (t : VT) : Res (Ptr × St) := do
  let (q, h) ← setKeyCached E s.h cur k t s.p.cache
  .ok (q, { s with h := h })

/-- `parseArray`, yamlparse.go:100-172; `line` is the text after `-`. -/
def parseArray (E : Env) (pick : Heap → Option Nat) (k : Nat) (line : Bytes) (sp : Int) (s : St) : Res St :=
  if line ≠ [] ∧ line.head? ≠ some 32 ∧ sp ≤ s.p.last then .err (.yaml line)
  else
    let l := trim line
    let s := if s.p.stack = [] then newRoot pick .array s else s
    match s.p.stack.head? with
    | none => .panic
    | some top =>
      let cur := top.v
      let s := if (s.h.mem cur).dt = .object then { s with h := reset s.h cur .array } else s
      if (s.h.mem cur).dt = .array then
        let (q, h) := setIndexCached s.h cur (-1) (if l ≠ [] then .string else .array) s.p.cache
        let s := push { s with h := h } false sp q
        if l = [] then .ok s
        else
          let (key, v, split) := splitKv l
          if !split then strVal1 E k s q key
          else if key = [] then .err (.yaml l)
          else do
            let s := { s with h := reset s.h q .object }
            let s := { s with p := { s.p with first := true, stack := s.p.stack.modifyHead (fun n => { n with isMap := true }) } }
            let (c, s) ←
              if v = [] then putKey E s q key .null
              else do
                let (c, s) ← putKey E s q key .string
                let s ← strVal1 E k s c v
                .ok (c, s)
            .ok (push s true sp c)
      else if l = [] then .ok s
      else do
        let r := getString E .panic (s.h.mem cur)
        let t ← r.1
        .ok { s with h := setString (s.h.set cur r.2) cur (t ++ [32] ++ l) }

/-- `mergeObject` of the parser, yamlparse.go:232-257. -/
def mergeRef (k : Nat) (s : St) (cur : Ptr) (line key v : Bytes) : Res (Bool × St) :=
  if key = [60, 60] then
    match v.head? with
    | none => .err (.yaml line)
    | some c =>
      if c = 42 ∧ refName v ≠ [] then
        match getUse (refName v) s.p.uses with
        | none => .ok (false, s)
        | some u =>
          if (s.h.mem u).dt = .object then do
            let h ← addFrom k s.h cur (some u) s.p.cache
            .ok (true, { s with h := h })
          else .ok (false, s)
      else .ok (false, s)
  else .ok (false, s)

/-- The branch of `parseObject` for a line on the level of the line before, yamlparse.go:291-310. -/
def objSame (E : Env) (k : Nat) (line : Bytes) (sp : Int) (key v : Bytes) (split : Bool) (cur : Ptr) (s : St) : Res St :=
  if key = [] ∨ split = false then .err (.yaml line)
  else do
    let (merged, s) ← mergeRef k s cur line key v
    if merged then .ok (push s false sp cur)
    else if v ≠ [] then do
      let (q, s) ← putKey E s cur key .string
      let s ← strVal1 E k s q v
      .ok (push s false sp q)
    else do
      let (q, s) ← putKey E s cur key .object
      .ok (push s false sp q)

/-- The value of a member in the branch for deeper lines, yamlparse.go:334-375. -/
def objMember (E : Env) (k : Nat) (key v : Bytes) (cur : Ptr) (s : St) : Res (Ptr × St) :=
  match v.head? with
  | none => putKey E s cur key .object
  | some c =>
    if c = 38 then
      let r := v.drop 1
      let i := (r.findIdx? (· == 32)).getD 0
      let (name, w) := if 0 < i then (r.take i, trim (r.drop i)) else (r, [])
      do
        let (q, s) ←
          if w = [] then putKey E s cur key .object
          else do
            let (q, s) ← putKey E s cur key .string
            let s ← strVal1 E k s q w
            .ok (q, s)
        .ok (q, { s with p := { s.p with uses := setUse name q s.p.uses } })
    else if c = 42 then
      match getUse (v.drop 1) s.p.uses with
      | some u => do
        let (q, h) ← clone k s.h (some u) s.p.cache
        .ok (q, { s with h := setKeyValue E h cur key (some q) })
      | none => do
        let (q, s) ← putKey E s cur key .string
        .ok (q, { s with h := setString s.h q v })
    else do
      let (q, s) ← putKey E s cur key .string
      let s ← strVal1 E k s q v
      .ok (q, s)

/-- The branch for deeper lines, yamlparse.go:311-376. -/
def objChild (E : Env) (k : Nat) (line : Bytes) (sp : Int) (key v : Bytes) (cur : Ptr) (s : St) : Res St :=
  if key = [] then
    if (s.h.mem cur).dt = .object ∨ (s.h.mem cur).dt = .array then .err (.yaml line)
    else do
      let r := getString E .panic (s.h.mem cur)
      let t ← r.1
      .ok { s with h := setString (s.h.set cur r.2) cur (t ++ [32, 58] ++ v) }
  else
    let s := if (s.h.mem cur).dt = .object then s else { s with h := reset s.h cur .object }
    do
      let (merged, s) ← mergeRef k s cur line key v
      if merged then .ok (push s false sp cur)
      else do
        let (q, s) ← objMember E k key v cur s
        .ok (push s false sp q)

/-- The branch for lines that close levels, yamlparse.go:377-396. -/
def objBack (E : Env) (k : Nat) (line : Bytes) (sp : Int) (key v : Bytes) (split : Bool) (cur : Ptr) (s : St) : Res St :=
  if key = [] ∨ split = false ∨ (s.h.mem cur).dt ≠ .object then .err (.yaml line)
  else if v = [] then do
    let (q, s) ← putKey E s cur key .object
    .ok (push s false sp q)
  else do
    let (merged, s) ← mergeRef k s cur line key v
    if merged then .ok (push s false sp cur)
    else do
      let (q, s) ← putKey E s cur key .string
      let s ← strVal1 E k s q v
      .ok (push s false sp q)

/-- `parseObject`, yamlparse.go:259-399. -/
def parseObject (E : Env) (pick : Heap → Option Nat) (k : Nat) (line : Bytes) (sp : Int) (s : St) : Res St :=
  let none_ := s.p.stack = []
  let s := if none_ then newRoot pick .object s else s
  match s.p.stack.head? with
  | none => .panic
  | some top =>
    let last := if ¬none_ ∧ s.p.first = true ∧ top.isMap = true then s.p.last + 2 else s.p.last
    let cur := top.v
    let s := { s with p := { s.p with first := false } }
    let (key, v, split) := splitKv line
    if none_ ∧ (key = [] ∨ split = false) then .err (.yaml line)
    else if last = sp then objSame E k line sp key v split cur s
    else if sp > last then objChild E k line sp key v cur s
    else objBack E k line sp key v split cur s

/-- The search for `" #"`: the position of its first occurrence. -/
def hashIdx : Bytes → Option Nat
  | 32 :: 35 :: _ => some 0
  | _ :: r => (hashIdx r).map (· + 1)
  | [] => none

/-- The line without its comment, yamlparse.go:183-191. -/
def cutComment (l : Bytes) : Bytes :=
  match hashIdx l with
  | some i => if 1 < i then l.take i else l
  | none => l

/-- The stack (last element first) after closing the levels that are deeper than `sp`, yamlparse.go:207-217: the first
element pushed stays. -/
def closeTo (sp : Int) : List YNode → List YNode
  | [] => []
  | [n] => [n]
  | n :: m :: r => if n.space < sp then n :: m :: r else closeTo sp (m :: r)

/-- `parseLine`, yamlparse.go:176-230. -/
def parseLine (E : Env) (pick : Heap → Option Nat) (k : Nat) (line : Bytes) (sp : Nat) (s : St) : Res St :=
  let l := line.drop sp
  match l.head? with
  | none => .panic
  | some c =>
    if c = 35 then .ok s
    else
      let l := cutComment l
      let last := if s.p.first = true ∧ (s.p.stack.head?.map (·.isMap)) = some true then s.p.last + 2 else s.p.last
      let stack := if last > sp then closeTo sp (s.p.stack.drop 2) else if last = sp then s.p.stack.drop 1 else s.p.stack
      let s := { s with p := { s.p with stack := stack } }
      do
        let s ← if c = 45 then parseArray E pick k (l.drop 1) sp s else parseObject E pick k l sp s
        .ok { s with p := { s.p with last := sp } }

/-- The loop of `parse`, yamlparse.go:482-515; `i` is `istart`. -/
def parseLoop (E : Env) (pick : Heap → Option Nat) (k : Nat) (data : Bytes) : Nat → Nat → St → Res St
  | 0, _, _ => .loop
  | f + 1, i, s =>
    let rest := data.drop i
    let line := rest.takeWhile (· != 10)
    let stop := if line.length < rest.length then i + line.length else data.length
    if stop < i + 2 then
      if stop + 1 = data.length then .ok s else parseLoop E pick k data f (stop + 1) s
    else do
      let s ← parseLine E pick k line (line.takeWhile (· == 32)).length s
      if data.length ≤ stop + 1 then .ok s else parseLoop E pick k data f (stop + 1) s

/-- `parse`, yamlparse.go:473-517. -/
def parse (E : Env) (pick : Heap → Option Nat) (f : Nat) (data : Bytes) (s : St) : Res St :=
  if data = [] then .ok s
  else parseLoop E pick f data f 0 { s with p := { s.p with last := -1 } }

/-- `NewValueFromYaml`, yamlparse.go:519-531, with the parser `p` from the pool: the result, and the parser given back. -/
def newValueFromYaml (E : Env) (pick : Heap → Option Nat) (f : Nat) (p : Parser) (h : Heap) (data : Bytes) (useCache : Bool) : Res (Option Ptr × St) := do
  let s ← parse E pick f data { p := { p with useCache := useCache }, h := h }
  .ok (s.p.root, { s with p := s.p.reset })

/-- The leading blanks `LoadFromYaml` skips, dxvalue.go:281-287. -/
def isWB (c : UInt8) : Bool := c == 32 || c == 13 || c == 10 || c == 9

/-- `LoadFromYaml`, dxvalue.go:278-307. -/
def loadFromYaml (E : Env) (pick : Heap → Option Nat) (f : Nat) (p : Parser) (h : Heap) (v : Ptr) (data : Bytes) : Res St :=
  let h := Heap.clear h v
  let data := data.dropWhile isWB
  match data.head? with
  | none => .ok { p := p, h := h }
  | some c => do
    let h := reset h v (if c = 45 then .array else .object)
    let s ← parse E pick f data { p := { p with useCache := false, root := some v, cache := (h.mem v).owner, stack := ⟨false, -1, v⟩ :: p.stack }, h := h }
    .ok { s with p := s.p.reset }

end Dxs.Yaml
