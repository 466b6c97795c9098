import Verif.Load.Ops
import Verif.Heap.Example

/-!
# C35: the shared constants never change
-/

namespace Dxs.Heap

/-- Everything the exported readers return for a node (`json`: what `Value2FormatJson` would give for a container). -/
structure Readings where
  type : VT
  bool : Bool
  int : BitVec 64
  double : F64
  float : F32
  string : Res Bytes
  count : Nat
  binary : Bytes
  binLen : Nat
  binExt : UInt8
  byIndex : Int → Option Ptr
  keyName : Int → Bytes

/-- The readings of a node. -/
def readings (E : Env) (json : Res Bytes) (n : Node) : Readings where
  type := n.dt
  bool := getBool E n
  int := getInt E n
  double := getDouble E n
  float := getFloat E n
  string := (getString E json n).1
  count := count n
  binary := getBinary n
  binLen := binLen n
  binExt := binExtType n
  byIndex := valueByIndex n
  keyName := keyNameByIndex n

/-- The readings a value must have that is `true`, `false`, `null`, `nan` or `inf`. -/
def constReadings (p : Ptr) : Readings where
  type := constVT p
  bool := p == trueP
  int := if p = trueP then 1 else 0
  double := if p = trueP then 0x3ff0000000000000 else 0
  float := if p = trueP then 0x3f800000 else 0
  string := .ok (if p = trueP then [116, 114, 117, 101] else if p = falseP then [102, 97, 108, 115, 101]
    else if p = nullP then [110, 117, 108, 108] else [])
  count := 0
  binary := []
  binLen := 0
  binExt := 0
  byIndex _ := none
  keyName _ := []

/-- The tree a constant stands for; the encoders are functions of the tree. -/
def constVal (p : Ptr) : Val :=
  if p = nullP then .null else if p = trueP then .tru else if p = falseP then .fls else if p = nanP then .nan else .inf

theorem lt5 {p : Ptr} (hp : p < 5) : p = nullP ∨ p = trueP ∨ p = falseP ∨ p = nanP ∨ p = infP := by
  simp only [nullP, trueP, falseP, nanP, infP]; omega

theorem const_readings {h : Heap} (I : Inv h) (E : Env) (json : Res Bytes) {p : Ptr} (hp : p < 5) :
    readings E json (h.mem p) = constReadings p := by
  have hd := I.const p hp
  generalize h.mem p = n at hd
  rcases lt5 hp with rfl | rfl | rfl | rfl | rfl <;>
    simp [readings, constReadings, getBool, getInt, getDouble, getFloat, getString, count, getBinary, binLen, binExtType, valueByIndex,
      keyNameByIndex, hd, constVT, nullP, trueP, falseP, nanP, infP, trueBytes, funext_iff]

theorem const_rep {h : Heap} (I : Inv h) {p : Ptr} (hp : p < 5) (v : Val) (F : List Ptr) :
    Rep h.mem v (some p) F ↔ v = constVal p ∧ F = [] := by
  have hd := I.const p hp
  have hr : Rep h.mem (constVal p) (some p) [] := by
    rw [rep_leaf]
    · refine ⟨p, rfl, by simp [foot, hp], ?_⟩
      have hd : (view h.mem p).dt = constVT p := by rw [view_dt, hd]
      generalize view h.mem p = n at hd
      rcases lt5 hp with rfl | rfl | rfl | rfl | rfl <;> simp [leafOf, hd, constVT, constVal, nullP, trueP, falseP, nanP, infP]
    · rcases lt5 hp with rfl | rfl | rfl | rfl | rfl <;> rfl
  constructor
  · intro h'; obtain ⟨h1, h2⟩ := rep_det h' hr; exact ⟨h1, h2⟩
  · rintro ⟨rfl, rfl⟩; exact hr

/-- After any history of operations with any arguments every reader returns for each constant what it must return. -/
theorem C35_readings (E : Env) (grow : Nat → Nat) (os : List Op) {h : Heap} (e : history E (Heap.init grow) os = some h)
    (json : Res Bytes) {p : Ptr} (hp : p < 5) : readings E json (h.mem p) = constReadings p :=
  const_readings (Inv.history E os (inv_init grow) e) E json hp

/-- ... it denotes the same tree, so all encoders write the same for it. -/
theorem C35_tree (E : Env) (grow : Nat → Nat) (os : List Op) {h : Heap} (e : history E (Heap.init grow) os = some h)
    {p : Ptr} (hp : p < 5) (v : Val) (F : List Ptr) : Rep h.mem v (some p) F ↔ v = constVal p ∧ F = [] :=
  const_rep (Inv.history E os (inv_init grow) e) hp v F

/-- ... and nothing is found inside it. -/
theorem C35_lookup (E : Env) (grow : Nat → Nat) (os : List Op) {h : Heap} (e : history E (Heap.init grow) os = some h)
    {p : Ptr} (hp : p < 5) (k : Bytes) (path : List Bytes) (i : Int) :
    (valueByName E h p k).1 = none ∧ (valueByPath E h p (k :: path)).1 = none ∧ (items E h p i).1 = ([], none) ∧
    (extractValue E h p k).1 = none := by
  have I := Inv.history E os (inv_init grow) e
  have hd := I.const p hp
  have hn : valueByName E h p k = (none, h) := by
    unfold valueByName; rw [hd]
    rcases lt5 hp with rfl | rfl | rfl | rfl | rfl <;> rfl
  refine ⟨by rw [hn], by rw [valueByPath, hn], ?_, ?_⟩
  · unfold items
    dsimp only
    rw [hd]
    rcases lt5 hp with rfl | rfl | rfl | rfl | rfl <;> rfl
  · unfold extractValue
    rw [hd]
    rcases lt5 hp with rfl | rfl | rfl | rfl | rfl <;> rfl

/-- A history of abuse: setters on `valueTrue`, a key stored in it, merging into a member that is `valueTrue`, documents loaded into it;
the operations do reach the constant (its hidden fields change). -/
example : ∃ h, history envEx (Heap.init id)
      [.api (.newObject false none), .api (.setKeyBool 5 [97] true), .api (.setInt trueP 7), .api (.setString trueP [120]),
       .api (.setKey trueP [98] .int), .api (.newObject false none), .api (.setKeyInt 14 [97] 3), .api (.mergeWith 9 none (some 5) (some 14)),
       .loadMsgPack trueP [0xcb, 1, 2, 3, 4, 5, 6, 7, 8], .loadMsgPack trueP [0x92, 0xc0, 0xc1], .newMsgPack [0x92, 0xc0] true none,
       .loadMsgPack trueP [0x07]] = some h ∧
    (h.mem trueP).cell = 7 ∧ (h.mem trueP).dt = .true := by
  refine ⟨_, rfl, ?_, ?_⟩ <;> decide

/-- JSON, BSON and Go data put into `valueTrue`: members and numbers stay in its hidden fields. -/
example : (history envEx (Heap.init id)
      [.loadJson trueP [123, 34, 97, 34, 58, 91, 93, 125] (fun p => if p = trueP then [([97], some 5)] else []),
       .loadBson [] trueP [5, 0, 0, 0, 0], .setGo trueP (.sc (.int 3)),
       .setKeyGo trueP [97] (.slice [.sc (.bool false)]) none, .unescape trueP, .api (.setTime trueP 9)]).map
      (fun h => ((h.mem trueP).cell, (h.mem trueP).kvs.length, (h.mem trueP).dt)) = some (9, 1, .true) := by decide +kernel

/-- YAML loaded into it, and a YAML text with an error. -/
example : (history envEx (Heap.init id)
      [.loadYaml trueP [97, 58, 32, 98] (fun _ => none) Yaml.Parser.fresh 9,
       .newYaml [97, 58, 32, 98, 10, 120, 121] true (fun _ => none) Yaml.Parser.fresh 9]).map
      (fun h => ((h.mem trueP).kvs.length, (h.mem trueP).dt)) = some (1, .true) := by decide +kernel

end Dxs.Heap
