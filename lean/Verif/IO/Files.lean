import Verif.IO.Model
import Verif.MsgPack.Model
import Verif.Yaml.Model

/-!
# Loading from files: MessagePack, YAML, binaries
-/

namespace Dxs.IO

/-- `NewValueFromMsgPackFile`, msgpackparse.go:501-507; `none`: the error of `ReadFile`. -/
def newValueFromMsgPackFile (E : Env) (o : Os) (f : Nat) (file : Option Bytes) : Res (Option Val) := do
  let (b, e) ← readFile o f file
  if e then .ok none
  else do
    let v ← MsgPack.newValueFromMsgPack E b
    .ok (some v)

/-- `NewValueFromYamlFile`, yamlparse.go:533-542, with the parser `p` from the pool (`newyamParser`, yamlparse.go:37-46); `none`: the error of `ReadFile`. -/
def newValueFromYamlFile (E : Env) (o : Os) (f : Nat) (file : Option Bytes) (pick : Heap.Heap → Option Nat) (f' : Nat) (p : Yaml.Parser) (h : Heap.Heap) (useCache : Bool) :
    Res (Option (Option Ptr × Yaml.St)) := do
  let (b, e) ← readFile o f file
  if e then .ok none
  else do
    let r ← Yaml.newValueFromYaml E pick f' p h (stripBom b) useCache
    .ok (some r)

/-- `SetBinary(b, false)`, bin_value.go:54-75, on a tree. -/
def setBinaryVal (b : Bytes) : Val → Val
  | .bin e _ => .bin e b
  | .exbin _ [] => .bin 0 b
  | .exbin e (t :: _) => .exbin e (t :: b)
  | v => v

/-- `SetBinaryFromFile`, bin_value.go:96-105: whether there is an error, and the value. -/
def setBinaryFromFile (o : Os) (f : Nat) (file : Option Bytes) (v : Val) : Res (Bool × Val) :=
  if v.vt = .binary ∨ v.vt = .exBinary then do
    let (b, e) ← readFile o f file
    if e then .ok (true, v) else .ok (false, setBinaryVal b v)
  else .ok (false, v)

end Dxs.IO
