import Verif.IO.Files
import Verif.Props.IO
import Verif.Props.MsgPack

/-!
# C109: a file means its bytes
-/

namespace Dxs.IO

/-- **C109 (MessagePack).** Loading a file is decoding its bytes, all of them and nothing else, however the operating system splits the reads. -/
theorem C109_msgPack (E : Env) (o : Os) (hf : ∀ i, o.fail i = false) (c : Bytes) (f : Nat) (h : c.length < f) :
    newValueFromMsgPackFile E o f (some c) = (MsgPack.newValueFromMsgPack E c).bind (fun v => .ok (some v)) := by
  simp only [newValueFromMsgPackFile, C49_readFile o hf c f h, Res.bind_ok]
  rfl

/-- A value written to a file as MessagePack comes back. -/
theorem C109_msgPack_roundtrip (E : Env) (o : Os) (hf : ∀ i, o.fail i = false) (v : Val) (hs : MsgPack.Supported v) (hk : MsgPack.DistinctKeys E v) (f : Nat)
    (h : (MsgPack.value2MsgPack E v).length < f) : ∃ w, newValueFromMsgPackFile E o f (some (MsgPack.value2MsgPack E v)) = .ok (some w) ∧ MsgPack.Same E v w := by
  obtain ⟨w, sw, e⟩ := MsgPack.C03_roundtrip E v [] hs hk
  rw [List.append_nil] at e
  refine ⟨w, ?_, sw⟩
  rw [C109_msgPack E o hf _ f h]
  simp [MsgPack.newValueFromMsgPack, e, Res.bind]

/-- **C109 (YAML).** Loading a file is parsing its bytes without the mark at the start. -/
theorem C109_yaml (E : Env) (o : Os) (hf : ∀ i, o.fail i = false) (c : Bytes) (f : Nat) (hl : c.length < f) (pick : Heap.Heap → Option Nat) (f' : Nat) (p : Yaml.Parser) (h : Heap.Heap)
    (useCache : Bool) :
    newValueFromYamlFile E o f (some c) pick f' p h useCache = (Yaml.newValueFromYaml E pick f' p h (stripBom c) useCache).bind (fun r => .ok (some r)) := by
  simp only [newValueFromYamlFile, C49_readFile o hf c f hl, Res.bind_ok]
  rfl

/-- A YAML file with the mark is as one without (if its text does not begin with a mark itself). -/
theorem C109_yaml_mark (E : Env) (o o' : Os) (hf : ∀ i, o.fail i = false) (hf' : ∀ i, o'.fail i = false) (t : Bytes) (hm : t.take 3 ≠ bom) (f : Nat) (hl : t.length + 3 < f)
    (pick : Heap.Heap → Option Nat) (f' : Nat) (p : Yaml.Parser) (h : Heap.Heap) (useCache : Bool) :
    newValueFromYamlFile E o f (some (bom ++ t)) pick f' p h useCache = newValueFromYamlFile E o' f (some t) pick f' p h useCache := by
  rw [C109_yaml E o hf _ f (by simp [bom]; omega), C109_yaml E o' hf' _ f (by omega), stripBom_bom]
  have : stripBom t = t := by
    unfold stripBom
    rw [if_neg (fun h => hm h.2)]
  rw [this]

/-- **C109 (errors).** A file that cannot be opened is an error for all three, and nothing is changed. -/
theorem C109_missing (E : Env) (o : Os) (f : Nat) (pick : Heap.Heap → Option Nat) (f' : Nat) (p : Yaml.Parser) (h : Heap.Heap) (useCache : Bool) (v : Val) :
    newValueFromMsgPackFile E o f none = .ok none ∧ newValueFromYamlFile E o f none pick f' p h useCache = .ok none ∧
      (v.vt = .binary ∨ v.vt = .exBinary → setBinaryFromFile o f none v = .ok (true, v)) := by
  refine ⟨rfl, rfl, fun hv => ?_⟩
  simp only [setBinaryFromFile, if_pos hv]
  rfl

/-- A read that fails in the middle is an error: no file is loaded in part. -/
theorem C109_read_error (E : Env) (o : Os) (c : Bytes) (f : Nat) (h : c.length < f) :
    newValueFromMsgPackFile E o f (some c) = .ok none ∨ newValueFromMsgPackFile E o f (some c) = (MsgPack.newValueFromMsgPack E c).bind (fun v => .ok (some v)) := by
  obtain ⟨p, e, h1, -, h2⟩ := C49_readFile_errors o c f h
  simp only [newValueFromMsgPackFile, h1, Res.bind_ok]
  cases e with
  | true => exact Or.inl rfl
  | false => rw [h2 rfl]; exact Or.inr rfl

/-- What `Binary()` gives, bin_value.go:40-52. -/
def content : Val → Option Bytes
  | .bin _ b => some b
  | .exbin _ (_ :: b) => some b
  | _ => none

/-- **C109 (binaries).** After `SetBinaryFromFile` a binary or extension value contains the bytes of the file; an extension value keeps its type (but one that
was empty becomes a binary, see C97). -/
theorem C109_binary_partial (o : Os) (hf : ∀ i, o.fail i = false) (c : Bytes) (f : Nat) (h : c.length < f) (v : Val) (hv : v.vt = .binary ∨ v.vt = .exBinary) :
    ∃ w, setBinaryFromFile o f (some c) v = .ok (false, w) ∧ content w = some c ∧ (∀ e t b, v = .exbin e (t :: b) → w = .exbin e (t :: c)) ∧
      (∀ e, v = .exbin e [] → w = .bin 0 c) ∧ (∀ e b, v = .bin e b → w = .bin e c) := by
  refine ⟨setBinaryVal c v, ?_, ?_, ?_, ?_, ?_⟩
  · simp only [setBinaryFromFile, if_pos hv, C49_readFile o hf c f h, Res.bind_ok]
    rfl
  · cases v with
    | bin e b => rfl
    | exbin e b => cases b <;> rfl
    | _ => simp [Val.vt] at hv
  · rintro e t b rfl
    rfl
  · rintro e rfl
    rfl
  · rintro e b rfl
    rfl

/-- **C109 is false** for values of other types: success is reported, the file is not even looked at, and the value is as before. -/
theorem C109_other_counterexample (o : Os) (f : Nat) (file : Option Bytes) (v : Val) (hv : v.vt ≠ .binary) (hx : v.vt ≠ .exBinary) : setBinaryFromFile o f file v = .ok (false, v) := by
  simp [setBinaryFromFile, hv, hx]

/-- An operating system that gives one byte at a time. -/
def osEx : Os := { stat := none, want := fun _ => 1, early := fun _ => false, fail := fun _ => false, scratch := fun _ c => c, extra := fun _ => 0 }

example : setBinaryFromFile osEx 9 (some [1, 2, 3]) (.exbin 0 [7, 9]) = .ok (false, .exbin 0 [7, 1, 2, 3]) := by
  obtain ⟨w, e, -, hw, -⟩ := C109_binary_partial osEx (fun _ => rfl) [1, 2, 3] 9 (by decide) (.exbin 0 [7, 9]) (Or.inr rfl)
  rw [e, hw _ _ _ rfl]

example : newValueFromMsgPackFile envEx osEx 9 (some [0x92, 1, 0xc0]) = .ok (some (.arr [.int 0 1, .null])) := by
  rw [C109_msgPack envEx osEx (fun _ => rfl) _ 9 (by decide)]
  rfl

end Dxs.IO
