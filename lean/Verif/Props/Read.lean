import Verif.Heap.Read
import Verif.Heap.Mut
import Verif.Heap.Clone
import Verif.Heap.Example
import Verif.Props.Json

/-!
# C84-C88: the getters and the enumeration of members
-/

namespace Dxs.Heap

/-! ## C84: getters -/

/-- The integer of a value: floats are truncated, strings are parsed, true is 1, what is not a number is 0. -/
def intOf (E : Env) : Val → BitVec 64
  | .int _ x => x
  | .double x => E.f64toI x
  | .dateTime x => E.f64toI x
  | .float c => E.f32toI (lo32 c)
  | .str s => (E.strToInt s).getD 0
  | .raw s => (E.strToInt s).getD 0
  | .tru => 1
  | _ => 0

/-- The same as a float64. -/
def doubleOf (E : Env) : Val → F64
  | .int _ x => E.i64to64 x
  | .double x => x
  | .dateTime x => x
  | .float c => E.f32to64 (lo32 c)
  | .str s => (E.strToFloat s).getD 0
  | .raw s => (E.strToFloat s).getD 0
  | .tru => 0x3ff0000000000000
  | _ => 0

/-- The same as a float32. -/
def floatOf (E : Env) : Val → F32
  | .int _ x => E.i64to32 x
  | .double x => E.f64to32 x
  | .dateTime x => E.f64to32 x
  | .float c => lo32 c
  | .str s => E.f64to32 ((E.strToFloat s).getD 0)
  | .raw s => E.f64to32 ((E.strToFloat s).getD 0)
  | .tru => 0x3f800000
  | _ => 0

/-- The data of a binary; the first byte of an extension is its type. -/
def dataOf : Val → Bytes
  | .bin _ b => b
  | .exbin _ b => b.drop 1
  | _ => []

/-- The type of an extension. -/
def extTypeOf : Val → UInt8
  | .exbin _ (t :: _) => t
  | _ => 0

/-- The bytes of an ASCII text. -/
def ascii (s : String) : Bytes := s.toList.map (fun c => UInt8.ofNat c.toNat)

/-- The text of a binary: object identifiers, decimals, and the first twelve bytes of the others; too few bytes panic. -/
def binShow (E : Env) (ext : UInt8) (b : Bytes) : Res Bytes :=
  let n := if ext = 19 then 16 else 12
  let around := if ext = 7 then ("{\"$oid\":\"", "\"}") else if ext = 19 then ("{\"Decimal128\":\"", "\"}") else ("Bin(", ")")
  if b.length < n then .panic else .ok (ascii around.1 ++ E.bin2Hex (b.take n) ++ ascii around.2)

theorem binShow_eq (E : Env) (ext : UInt8) (b : Bytes) : Json.binText E ext b = binShow E ext b := by
  unfold Json.binText binShow
  by_cases h7 : ext = 7
  · subst h7
    by_cases hb : 12 ≤ b.length
    · simp only [Json.upTo, beq_self_eq_true, if_true, hb, bind, Res.bind, if_neg (show ¬b.length < 12 by omega), if_neg (show ¬(7 : UInt8) = 19 by decide)]; rfl
    · simp only [Json.upTo, beq_self_eq_true, if_true, hb, if_false, bind, Res.bind, if_pos (show b.length < 12 by omega), if_neg (show ¬(7 : UInt8) = 19 by decide)]
  by_cases h19 : ext = 19
  · subst h19
    by_cases hb : 16 ≤ b.length
    · simp only [Json.upTo, beq_self_eq_true, if_true, hb, bind, Res.bind, if_neg (show ¬b.length < 16 by omega), show ((19 : UInt8) == 7) = false from rfl, Bool.false_eq_true, if_false, if_neg (show ¬(19 : UInt8) = 7 by decide)]; rfl
    · simp only [Json.upTo, beq_self_eq_true, if_true, hb, if_false, bind, Res.bind, if_pos (show b.length < 16 by omega), show ((19 : UInt8) == 7) = false from rfl, Bool.false_eq_true]
  · have h7' : (ext == 7) = false := by simpa using h7
    have h19' : (ext == 19) = false := by simpa using h19
    by_cases hb : 12 ≤ b.length
    · simp only [Json.upTo, h7', h19', h7, h19, hb, bind, Res.bind, if_neg (show ¬b.length < 12 by omega), Bool.false_eq_true, if_false, if_true]; rfl
    · simp only [Json.upTo, h7', h19', h7, h19, hb, bind, Res.bind, if_pos (show b.length < 12 by omega), Bool.false_eq_true, if_false]

/-- The text of a value. -/
def textOf (E : Env) : Val → Res Bytes
  | .int _ x => .ok (decInt x.toInt)
  | .double x => .ok (E.fmtFloat x)
  | .float c => .ok (E.fmtFloat (E.f32to64 (lo32 c)))
  | .dateTime x => .ok (E.fmtTime x)
  | .str s => .ok s
  | .raw s => .ok (E.unesc s)
  | .tru => .ok [116, 114, 117, 101]
  | .fls => .ok [102, 97, 108, 115, 101]
  | .null => .ok [110, 117, 108, 108]
  | .bin e b => binShow E e b
  | .obj ku kvs => Json.value2FormatJson E .onlyAnsi false (.obj ku kvs)
  | .arr xs => Json.value2FormatJson E .onlyAnsi false (.arr xs)
  | _ => .ok []

/-- The first of the three layouts that fits. -/
def anyLayout {τ : Type} (C : Clock τ) (s : Bytes) : Option τ := [0, 1, 2].findSome? (fun i => C.parse i s)

theorem read_layout {τ : Type} (C : Clock τ) (s : Bytes) : C.read s = anyLayout C s := by
  unfold Clock.read anyLayout
  cases h0 : C.parse 0 s with
  | some t => simp [h0]
  | none =>
    cases h1 : C.parse 1 s with
    | some t => simp [h0, h1]
    | none => cases h2 : C.parse 2 s <;> simp [h0, h1, h2]

/-- The time of a value as a number of days; -1 for what is no time. -/
def timeOf {τ : Type} (E : Env) (C : Clock τ) : Val → F64
  | .int e x => doubleOf E (.int e x)
  | .double x => x
  | .dateTime x => x
  | .float c => doubleOf E (.float c)
  | .str s => ((anyLayout C s).map C.delphi).getD 0xbff0000000000000
  | .raw s => ((anyLayout C s).map C.delphi).getD 0xbff0000000000000
  | _ => 0xbff0000000000000

/-- The time of a value as a Go time. -/
def goTimeOf {τ : Type} (E : Env) (C : Clock τ) : Val → τ
  | .int e x => C.toTime (doubleOf E (.int e x))
  | .double x => C.toTime x
  | .dateTime x => C.toTime x
  | .float c => C.toTime (doubleOf E (.float c))
  | .str s => (anyLayout C s).getD C.zero
  | .raw s => (anyLayout C s).getD C.zero
  | _ => C.zero

/-- The duration of a value: an integer is a number of nanoseconds, a string (unescaped) is parsed, everything else has none. -/
def durationOf {τ : Type} (E : Env) (C : Clock τ) (dflt : BitVec 64) : Val → BitVec 64
  | .str s => (C.duration s).getD dflt
  | .raw s => (C.duration (E.unesc s)).getD dflt
  | .int _ x => x
  | _ => dflt

/-- What the node of a value contains. -/
def Shows (n : Node) : Val → Prop
  | .nil => False
  | .obj _ kvs => n.dt = .object ∧ n.kvs.length = kvs.length
  | .arr xs => n.dt = .array ∧ n.arr.length = xs.length
  | .str s => n.dt = .string ∧ n.str = s
  | .raw s => n.dt = .rawString ∧ n.str = s
  | .int e x => n.dt = .int ∧ n.ext = e ∧ n.cell = x
  | .float c => n.dt = .float ∧ n.cell = c
  | .double x => n.dt = .double ∧ n.cell = x
  | .dateTime x => n.dt = .dateTime ∧ n.cell = x
  | .bin e b => n.dt = .binary ∧ n.ext = e ∧ n.bin = b
  | .exbin e b => n.dt = .exBinary ∧ n.ext = e ∧ n.bin = b
  | .null => n.dt = .null
  | .tru => n.dt = .true
  | .fls => n.dt = .false
  | .nan => n.dt = .nan
  | .inf => n.dt = .inf

theorem shows_leaf {n : Node} {v : Val} (hl : leafOf n = some v) : Shows n v := by
  unfold leafOf at hl
  split at hl <;> simp at hl <;> subst hl <;> simp_all [Shows]

theorem Good.shows {h : Heap} {p : Ptr} {v : Val} {F : List Ptr} (g : Good h (some p) v F) : Shows (h.mem p) v := by
  by_cases hl : Val.isLeaf v = true
  · obtain ⟨q, e, -, hq⟩ := (rep_leaf hl _ _).1 g.rep
    cases e
    by_cases h5 : p < 5
    · have hd := g.inv.const p h5
      have hp : p = 0 ∨ p = 1 ∨ p = 2 ∨ p = 3 ∨ p = 4 := by omega
      have hv : (view h.mem p).dt = (h.mem p).dt := view_dt _ _
      unfold leafOf at hq
      rw [hv, hd] at hq
      rcases hp with rfl | rfl | rfl | rfl | rfl <;> simp [constVT, nullP, trueP, falseP, nanP] at hq hd ⊢ <;> subst hq <;> exact hd
    · rw [view_ge (by omega)] at hq
      exact shows_leaf hq
  · have r := g.rep
    cases v <;> simp [Val.isLeaf] at hl
    · exact absurd r.1 (by simp)
    · obtain ⟨_, _, e, -, -, hd, -, hm⟩ := r
      cases e
      have := congrArg List.length (repM_iff.1 hm).1
      exact ⟨hd, by simpa using this⟩
    · obtain ⟨_, _, e, -, -, hd, hm⟩ := r
      cases e
      exact ⟨hd, repL_length hm⟩

/-- Case analysis on a value and its node; `d` is the type of the node. -/
macro "shown " v:ident s:ident d:ident : tactic => `(tactic| (
  cases $v:ident <;> first
    | exact ($s).elim
    | (obtain ⟨$d:ident, e1, e2⟩ := $s; subst e1; subst e2)
    | (obtain ⟨$d:ident, e1⟩ := $s; subst e1)
    | obtain ⟨$d:ident, _⟩ := $s
    | have $d:ident := $s))

section
variable {E : Env} {h : Heap} {p : Ptr} {v : Val} {F : List Ptr}

/-- `Int`. -/
theorem C84_int (g : Good h (some p) v F) : getInt E (h.mem p) = intOf E v := by
  have s := g.shows
  generalize h.mem p = n at s
  clear g
  shown v s hd <;> (unfold getInt; rw [hd]; try rfl)

/-- `Double`. -/
theorem C84_double (g : Good h (some p) v F) : getDouble E (h.mem p) = doubleOf E v := by
  have s := g.shows
  generalize h.mem p = n at s
  clear g
  shown v s hd <;> (unfold getDouble; rw [hd]; try rfl)

/-- `Float`. -/
theorem C84_float (g : Good h (some p) v F) : getFloat E (h.mem p) = floatOf E v := by
  have s := g.shows
  generalize h.mem p = n at s
  clear g
  shown v s hd <;> (unfold getFloat; rw [hd]; try rfl)

/-- `Binary`, `BinLen`, `BinExtType`. -/
theorem C84_binary (g : Good h (some p) v F) :
    getBinary (h.mem p) = dataOf v ∧ binLen (h.mem p) = (dataOf v).length ∧ binExtType (h.mem p) = extTypeOf v := by
  have s := g.shows
  generalize h.mem p = n at s
  clear g
  shown v s hd <;> (unfold getBinary binLen binExtType; rw [hd]; try exact ⟨rfl, rfl, rfl⟩)
  cases n.bin <;> exact ⟨rfl, rfl, rfl⟩

/-- `String`, where `Value2FormatJson` gives the text of a container. -/
theorem C84_string (g : Good h (some p) v F) : (getString E (Json.value2FormatJson E .onlyAnsi false v) (h.mem p)).1 = textOf E v := by
  have s := g.shows
  generalize h.mem p = n at s
  clear g
  shown v s hd <;> (unfold getString; rw [hd]; try rfl)
  exact binShow_eq E _ _

/-- `DateTime`. -/
theorem C84_time {τ : Type} (C : Clock τ) (g : Good h (some p) v F) : getDateTime E C (h.mem p) = timeOf E C v := by
  have s := g.shows
  generalize h.mem p = n at s
  clear g
  shown v s hd <;> (unfold getDateTime getDouble; rw [hd]; try rfl)
  all_goals (unfold timeOf; dsimp only; rw [← read_layout]; cases C.read n.str <;> rfl)

/-- `GoTime`. -/
theorem C84_goTime {τ : Type} (C : Clock τ) (g : Good h (some p) v F) :
    getGoTime E C (h.mem p) = goTimeOf E C v := by
  have s := g.shows
  generalize h.mem p = n at s
  clear g
  shown v s hd <;> (unfold getGoTime getDouble; rw [hd]; try rfl)
  all_goals (unfold goTimeOf; dsimp only; rw [← read_layout]; cases C.read n.str <;> rfl)

/-- `Duration`. -/
theorem C84_duration {τ : Type} (C : Clock τ) (g : Good h (some p) v F) (dflt : BitVec 64) :
    (getDuration E C (h.mem p) dflt).1 = durationOf E C dflt v := by
  have s := g.shows
  generalize h.mem p = n at s
  clear g
  shown v s hd <;> (unfold getDuration getInt getString; rw [hd]; try rfl)

/-- `ValueByIndex` and the children of the node. -/
theorem valueByIndex_eq (n : Node) (idx : Int) : valueByIndex n idx = if 0 ≤ idx then ((Node.kids n)[idx.toNat]?).bind id else none := by
  unfold valueByIndex Node.kids
  cases hd : n.dt <;> simp only [inRange, Bool.and_eq_true, decide_eq_true_eq] <;> (try simp)
  · by_cases h0 : 0 ≤ idx
    · by_cases h1 : idx < n.kvs.length
      · rw [if_pos ⟨h0, h1⟩, if_pos h0]; cases n.kvs[idx.toNat]? <;> rfl
      · rw [if_neg (fun h => h1 h.2), if_pos h0, List.getElem?_eq_none (by omega)]; rfl
    · rw [if_neg (fun h => h0 h.1), if_neg h0]
  · by_cases h0 : 0 ≤ idx
    · by_cases h1 : idx < n.arr.length
      · rw [if_pos ⟨h0, h1⟩, if_pos h0]
      · rw [if_neg (fun h => h1 h.2), if_pos h0, List.getElem?_eq_none (by omega)]; rfl
    · rw [if_neg (fun h => h0 h.1), if_neg h0]

/-- The node has as many children as the value. -/
theorem Good.kids_length (g : Good h (some p) v F) : (Node.kids (h.mem p)).length = (Val.kids v).length := by
  have s := g.shows
  generalize h.mem p = n at s
  unfold Node.kids Val.kids
  cases v <;> simp only [Shows] at s <;> (first | exact s.elim | rw [s.1] | rw [s]) <;> simp [s]

/-- The child at a position. -/
def kidAt (v : Val) (idx : Int) : Option Val := if 0 ≤ idx then (Val.kids v)[idx.toNat]? else none

/-- `ValueByIndex` gives the child at that position. -/
theorem C84_valueByIndex (g : Good h (some p) v F) (idx : Int) :
    match kidAt v idx with
    | none => valueByIndex (h.mem p) idx = none
    | some w => ∃ G, Good h (valueByIndex (h.mem p) idx) w G := by
  rw [valueByIndex_eq]
  unfold kidAt
  by_cases h0 : 0 ≤ idx
  · rw [if_pos h0, if_pos h0]
    cases hk : (Val.kids v)[idx.toNat]? with
    | none =>
      have := List.getElem?_eq_none_iff.1 hk
      rw [List.getElem?_eq_none (by rw [g.kids_length]; exact this)]; rfl
    | some w =>
      obtain ⟨b, Fi, hb, gi, -⟩ := g.kid hk
      rw [hb]; exact ⟨Fi, gi⟩
  · rw [if_neg h0, if_neg h0]

/-- `IntByIndex` and the like: the getter's result for the child at that position, the default if there is none (or nil). -/
theorem C84_byIndex {α : Type} (read : Node → α) (val : Val → α) (hr : ∀ q w G, Good h (some q) w G → read (h.mem q) = val w)
    (g : Good h (some p) v F) (idx : Int) (dflt : α) :
    byIndex read h p idx dflt = (match kidAt v idx with
      | none => dflt
      | some .nil => dflt
      | some w => val w) := by
  have hc := C84_valueByIndex g idx
  unfold byIndex
  cases hk : kidAt v idx with
  | none => rw [hk] at hc; simp only at hc; rw [hc]
  | some w =>
    rw [hk] at hc
    obtain ⟨G, gw⟩ := hc
    generalize valueByIndex (h.mem p) idx = a at gw
    cases a with
    | none =>
      have : w = .nil := by
        have := gw.rep
        cases w <;> simp [Rep, RepLeaf] at this ⊢
      subst this; rfl
    | some q =>
      have hn := rep_ne_nil gw.rep
      cases w <;> first | exact absurd rfl hn | exact hr q _ G gw

/-- `String` replaces the escapes of a string that came from JSON; other values are not changed. -/
def readOnce (E : Env) : Val → Val
  | .raw s => .str (E.unesc s)
  | v => v

/-- The memory after `String`. -/
theorem C84_string_after (g : Good h (some p) v F) (json : Res Bytes) : Upd h F (h.set p (getString E json (h.mem p)).2) (some p) (readOnce E v) F := by
  have s := g.shows
  by_cases hr : (h.mem p).dt = .rawString
  · have h5 := leaf_ge g.inv hr (by simp) (by simp) (by simp) (by simp) (by simp)
    have hv : v = .raw (h.mem p).str := by
      cases v <;> simp only [Shows] at s <;> first | (rw [s.2]; done) | (rw [hr] at s; simp at s)
    subst hv
    have hF : F = [p] := by
      obtain ⟨q, e, hF, -⟩ := g.rep
      cases e
      rw [hF, foot, if_neg (by omega)]
    subst hF
    simp only [getString, hr]
    exact write_leaf g rfl h5 rfl rfl
  · have e : (getString E json (h.mem p)).2 = h.mem p := by
      unfold getString
      split <;> first | rfl | contradiction
    have e2 : readOnce E v = v := by
      cases v <;> first | rfl | (simp only [Shows] at s; exact absurd s.1 hr)
    rw [e, e2, set_self]
    exact g.upd_refl

/-- `StringByIndex`: the text of the child at that position, the default if there is none (or nil); only a string that came from JSON is changed. -/
theorem C84_stringByIndex (g : Good h (some p) v F) (idx : Int) (dflt : Bytes) :
    (match kidAt v idx with
    | none => ∀ json, stringByIndex E json h p idx dflt = (.ok dflt, h)
    | some .nil => ∀ json, stringByIndex E json h p idx dflt = (.ok dflt, h)
    | some w => (stringByIndex E (Json.value2FormatJson E .onlyAnsi false w) h p idx dflt).1 = textOf E w ∧
        ∀ json, ∃ F', Upd h F (stringByIndex E json h p idx dflt).2 (some p) (Val.setKid v idx.toNat (readOnce E w)) F') := by
  cases hk : kidAt v idx with
  | none =>
    have hc := C84_valueByIndex g idx
    rw [hk] at hc
    intro json
    unfold stringByIndex
    rw [hc]
  | some w =>
    unfold kidAt at hk
    split at hk
    · obtain ⟨b, Fi, hb, gi, -, hu⟩ := g.kid hk
      have e : valueByIndex (h.mem p) idx = b := by
        rw [valueByIndex_eq, if_pos ‹_›, hb]; rfl
      unfold stringByIndex
      rw [e]
      cases b with
      | none =>
        have : w = .nil := by
          have := gi.rep
          cases w <;> simp [Rep, RepLeaf] at this ⊢
        subst this
        exact fun _ => rfl
      | some q =>
        have hn := rep_ne_nil gi.rep
        have key := And.intro (C84_string (E := E) gi) (fun json => hu [] _ _ _ (C84_string_after (E := E) gi json) (by simp))
        cases w <;> first | exact absurd rfl hn | exact key
    · cases hk

/-- `Count`. -/
theorem C84_count (g : Good h (some p) v F) : count (h.mem p) = (Val.kids v).length := by
  rw [← g.kids_length]
  unfold count Node.kids
  cases (h.mem p).dt <;> simp

end

/-- The array of the example memory. -/
example : count (exHeap.mem 7) = 3 ∧ byIndex (getInt envEx) exHeap 7 0 77 = 1 ∧ byIndex (getInt envEx) exHeap 7 1 77 = 77 ∧ byIndex (getInt envEx) exHeap 7 3 77 = 77 :=
  ⟨C84_count exGood7, C84_byIndex (getInt envEx) (intOf envEx) (fun _ _ _ g => C84_int g) exGood7 0 77,
    C84_byIndex (getInt envEx) (intOf envEx) (fun _ _ _ g => C84_int g) exGood7 1 77, C84_byIndex (getInt envEx) (intOf envEx) (fun _ _ _ g => C84_int g) exGood7 3 77⟩

/-- An element that came from JSON is unescaped in place. -/
example :
    let h := ((Heap.init id).upd 5 (fun n => { n with dt := .array, arr := [some 6] })).upd 6 (fun n => { n with dt := .rawString, str := [92, 49] })
    (stringByIndex envEx .panic h 5 0 []).1 = .ok [49] ∧ leafOf ((stringByIndex envEx .panic h 5 0 []).2.mem 6) = some (.str [49]) ∧
    (stringByIndex envEx .panic h 5 1 [7]).1 = .ok [7] := by decide

/-! ## C85: `Bool` of numbers -/

/-- The bits of a float64 that is not a number. -/
def isNaN64 (x : F64) : Prop := 0x7ff0000000000000 < x.toNat % 2 ^ 63

/-- The bits of a float64 greater than zero, for numbers: the sign bit is 0 and some other bit is 1. -/
def positive64 (x : F64) : Prop := x.toNat < 2 ^ 63 ∧ x.toNat % 2 ^ 63 ≠ 0

/-- The bits of a float32 greater than zero, for numbers. -/
def positive32 (x : F32) : Prop := x.toNat < 2 ^ 31 ∧ x.toNat % 2 ^ 31 ≠ 0

/-- The number of a value is greater than zero. -/
def Positive : Val → Prop
  | .int _ x => 0 < x.toInt
  | .double x => ¬ isNaN64 x ∧ positive64 x
  | .dateTime x => ¬ isNaN64 x ∧ positive64 x
  | .float c => positive32 (lo32 c)
  | _ => False

theorem toInt_pos (x : BitVec 64) : 0 < x.toInt ↔ positive64 x := by
  have h := x.isLt
  unfold positive64
  rw [BitVec.toInt_eq_toNat_cond]
  split <;> omega

/-- `Bool` says whether an integer or a float64 is greater than zero. Missing: float32 and NaN, for which it is false. -/
theorem C85_positive_partial {E : Env} {h : Heap} {p : Ptr} {v : Val} {F : List Ptr} (g : Good h (some p) v F)
    (hv : (∃ e x, v = .int e x) ∨ (∃ x, v = .double x ∧ ¬ isNaN64 x) ∨ ∃ x, v = .dateTime x ∧ ¬ isNaN64 x) :
    getBool E (h.mem p) = true ↔ Positive v := by
  have s := g.shows
  rcases hv with ⟨e, x, rfl⟩ | ⟨x, rfl, hx⟩ | ⟨x, rfl, hx⟩
  · simp only [Shows] at s; simp [getBool, s, Positive]
  · simp only [Shows] at s; simp [getBool, s, Positive, hx, toInt_pos]
  · simp only [Shows] at s; simp [getBool, s, Positive, hx, toInt_pos]

/-- The other kinds: true itself, and strings equal to `true` up to case; never containers, null, false, binaries. -/
theorem C85_other {E : Env} {h : Heap} {p : Ptr} {v : Val} {F : List Ptr} (g : Good h (some p) v F) :
    (v = .tru → getBool E (h.mem p) = true) ∧ (∀ t, v = .str t → getBool E (h.mem p) = E.equalFold t [116, 114, 117, 101]) ∧
    (v.vt ∉ [.true, .string, .rawString, .int, .float, .double, .dateTime] → getBool E (h.mem p) = false) := by
  have hd := rep_dt g.rep
  have s := g.shows
  refine ⟨?_, ?_, fun hv => ?_⟩
  · rintro rfl; unfold getBool; rw [hd]; rfl
  · rintro t rfl; simp only [Shows] at s; simp [getBool, s, trueBytes]
  · unfold getBool; rw [hd]
    revert hv
    cases v.vt <;> simp

/-- `SetFloat(-1)` makes a value whose `Bool` is true: the four bytes of the float32 are read as part of an int64. -/
theorem C85_float_counterexample (E : Env) :
    let r := newValue (Heap.init id) .float
    let h := setFloat r.2 r.1 0xbf800000
    getBool E (h.mem r.1) = true ∧ getFloat E (h.mem r.1) = 0xbf800000 ∧ ¬ positive32 0xbf800000 := by
  refine ⟨rfl, rfl, ?_⟩
  unfold positive32; decide

/-- `Bool` of NaN is true. -/
theorem C85_nan_counterexample (E : Env) :
    let r := newValue (Heap.init id) .double
    let h := setDouble r.2 r.1 0x7ff8000000000001
    getBool E (h.mem r.1) = true ∧ isNaN64 0x7ff8000000000001 := by
  refine ⟨rfl, ?_⟩
  unfold isNaN64; decide

/-! ## C86: escapes in strings -/

/-- `String` and `Duration` give the same for a string whose escapes have not been replaced yet and for the string it stands for. -/
theorem C86_string (E : Env) (json : Res Bytes) {τ : Type} (C : Clock τ) {h : Heap} {p q : Ptr} {s : Bytes} {F G : List Ptr}
    (g : Good h (some p) (.raw s) F) (g' : Good h (some q) (.str (E.unesc s)) G) (d : BitVec 64) :
    (getString E json (h.mem p)).1 = (getString E json (h.mem q)).1 ∧ (getDuration E C (h.mem p) d).1 = (getDuration E C (h.mem q) d).1 := by
  refine ⟨?_, ?_⟩
  · have a := g.shows; have b := g'.shows
    simp only [Shows] at a b
    simp [getString, a, b]
  · rw [C84_duration C g, C84_duration C g']; rfl

/-- The other getters: only if there is nothing to replace. -/
theorem C86_plain_partial (E : Env) {τ : Type} (C : Clock τ) {h : Heap} {p q : Ptr} {s : Bytes} {F G : List Ptr}
    (g : Good h (some p) (.raw s) F) (g' : Good h (some q) (.str (E.unesc s)) G) (hs : E.unesc s = s) :
    getInt E (h.mem p) = getInt E (h.mem q) ∧ getDouble E (h.mem p) = getDouble E (h.mem q) ∧ getFloat E (h.mem p) = getFloat E (h.mem q) ∧
    getBool E (h.mem p) = getBool E (h.mem q) ∧ getDateTime E C (h.mem p) = getDateTime E C (h.mem q) ∧ getGoTime E C (h.mem p) = getGoTime E C (h.mem q) := by
  have a := g.shows; have b := g'.shows
  simp only [Shows] at a b
  rw [C84_int g, C84_int g', C84_double g, C84_double g', C84_float g, C84_float g', C84_time C g, C84_time C g', C84_goTime C g, C84_goTime C g', hs]
  refine ⟨rfl, rfl, rfl, ?_, rfl, rfl⟩
  unfold getBool
  rw [a.1, b.1, a.2, b.2, hs]

/-- The JSON text `"\1"` (in the example environment the same string as `"1"`): its `Int` is 0, and 1 after `String` has been called. -/
theorem C86_counterexample :
    let h := (Heap.init id).upd 5 (fun n => { n with dt := .rawString, str := [92, 49] })
    getInt envEx (h.mem 5) = 0 ∧ getInt envEx (getString envEx .panic (h.mem 5)).2 = 1 := by decide

/-! ## C87: enumeration by index -/

/-- What a container contains, with the (unescaped) names; elements have none. -/
def contents (E : Env) : Val → List (Bytes × Val)
  | .arr xs => xs.map (fun x => ([], x))
  | v => members E v

theorem contents_snd (E : Env) (v : Val) : (contents E v).map Prod.snd = Val.kids v := by
  cases v
  case obj ku kvs => cases ku <;> simp [contents, members, Val.kids, Function.comp_def]
  all_goals simp [contents, members, Val.kids, Function.comp_def]

/-- `UnEscapestrs` on the tree. -/
theorem unesc_upd (E : Env) {h : Heap} {p : Ptr} {ku : Bool} {kvs : List (Bytes × Val)} {F : List Ptr} (g : Good h (some p) (.obj ku kvs) F) :
    Upd h F (h.set p { h.mem p with dt := .object, ku := true, kvs := unescKeys E (h.mem p).ku (h.mem p).kvs }) (some p) (.obj true (unescKeys E ku kvs)) F := by
  obtain ⟨F0, rfl, h5, hdt, hk, hm, hp0, hn0, hav⟩ := g.obj_inv
  obtain ⟨hkeys, hl⟩ := repM_iff.1 hm
  have hu : ∀ {γ : Type} (zs : List (Bytes × γ)), (unescKeys E ku zs).map Prod.fst = if ku then zs.map Prod.fst else (zs.map Prod.fst).map E.unesc := by
    intro γ zs; unfold unescKeys; split <;> simp
  have hs : ∀ {γ : Type} (zs : List (Bytes × γ)), (unescKeys E ku zs).map Prod.snd = zs.map Prod.snd := by
    intro γ zs; unfold unescKeys; split <;> simp
  refine obj_write (X := []) g (n := { h.mem p with dt := .object, ku := true, kvs := unescKeys E (h.mem p).ku (h.mem p).kvs }) rfl rfl (F' := F0)
    (kvs' := unescKeys E ku kvs) (repM_iff.2 ⟨?_, ?_⟩) hn0 ?_ (by simp)
  · rw [hk, hu, hu, hkeys]
  · rw [hk, hs, hs]; exact hl
  · intro q hq
    exact Or.inl ⟨by simp [hq], by rintro rfl; exact hp0 hq⟩

/-- `Items(i)` is name and value of the `i`-th member or element, `("", nil)` if there is none. The value keeps its contents. -/
theorem C87_items (E : Env) {h : Heap} {p : Ptr} {v : Val} {F : List Ptr} (g : Good h (some p) v F) (idx : Int) :
    (∃ v', Upd h F (items E h p idx).2 (some p) v' F ∧ contents E v' = contents E v) ∧
    match (if 0 ≤ idx then (contents E v)[idx.toNat]? else none) with
    | none => (items E h p idx).1 = ([], none)
    | some kw => (items E h p idx).1.1 = kw.1 ∧ ∃ G, Good (items E h p idx).2 (items E h p idx).1.2 kw.2 G := by
  have same : Upd h F h (some p) v F := ⟨g, Frame.refl g.inv F, fun q hq => Or.inl hq⟩
  have hlen : (contents E v).length = (Val.kids v).length := by rw [← contents_snd E v, List.length_map]
  have hcase : (∃ ku kvs, v = .obj ku kvs) ∨ (∃ xs, v = .arr xs) ∨ (contents E v = [] ∧ v.vt ≠ .object ∧ v.vt ≠ .array) := by
    cases v <;> simp [contents, members, Val.vt]
  have hd := rep_dt g.rep
  rcases hcase with ⟨ku, kvs, rfl⟩ | ⟨xs, rfl⟩ | ⟨hc, n1, n2⟩
  · have hl := g.kids_length
    have hd : (h.mem p).dt = .object := hd
    have hl : (h.mem p).kvs.length = kvs.length := by simpa [Node.kids, hd, Val.kids] using hl
    have hcl : (contents E (.obj ku kvs)).length = kvs.length := by rw [hlen]; simp [Val.kids]
    unfold items
    simp only [hd, inRange, Bool.and_eq_true, decide_eq_true_eq]
    by_cases hi : 0 ≤ idx ∧ idx < (h.mem p).kvs.length
    · have hi' : idx.toNat < kvs.length := by omega
      have u := unesc_upd E g
      have e1 : contents E (.obj true (unescKeys E ku kvs)) = contents E (.obj ku kvs) := by simp [contents, members_obj, unescKeys_true]
      rw [if_pos hi, if_pos hi.1]
      refine ⟨⟨_, u, e1⟩, ?_⟩
      rw [List.getElem?_eq_getElem (by omega)]
      have hx : (contents E (.obj true (unescKeys E ku kvs)))[idx.toNat]? = some ((contents E (.obj ku kvs))[idx.toNat]'(by omega)) := by
        rw [e1]; exact List.getElem?_eq_getElem _
      generalize (contents E (.obj ku kvs))[idx.toNat]'(by omega) = kw at hx ⊢
      obtain ⟨k, w⟩ := kw
      have hk := congrArg (Option.map Prod.snd) hx
      rw [← List.getElem?_map, contents_snd] at hk
      obtain ⟨b, Fi, hb, gi, -⟩ := u.good.kid hk
      obtain ⟨F0, -, -, -, -, hm, -⟩ := u.good.obj_inv
      have hkeys := (repM_iff.1 hm).1
      rw [set_mem_same] at hb hkeys
      simp only [Node.kids, List.getElem?_map] at hb
      have hkeys := congrArg (fun l => l[idx.toNat]?) hkeys
      simp only [contents, members] at hx
      simp only [List.getElem?_map, hx] at hkeys
      cases hz : (unescKeys E (h.mem p).ku (h.mem p).kvs)[idx.toNat]? with
      | none => rw [hz] at hb; cases hb
      | some z =>
        rw [hz] at hb hkeys
        simp only [Option.map_some, Option.some.injEq] at hb hkeys
        exact ⟨hkeys, Fi, by rw [show (some z).getD ([], none) = z from rfl, hb]; exact gi⟩
    · rw [if_neg hi]
      refine ⟨⟨_, same, rfl⟩, ?_⟩
      by_cases h0 : 0 ≤ idx
      · rw [if_pos h0, List.getElem?_eq_none (by omega)]
      · rw [if_neg h0]
  · have hl := g.kids_length
    have hd : (h.mem p).dt = .array := hd
    have hl : (h.mem p).arr.length = xs.length := by simpa [Node.kids, hd, Val.kids] using hl
    have hcl : (contents E (.arr xs)).length = xs.length := by rw [hlen]; simp [Val.kids]
    unfold items
    simp only [hd, inRange, Bool.and_eq_true, decide_eq_true_eq]
    by_cases hi : 0 ≤ idx ∧ idx < (h.mem p).arr.length
    · rw [if_pos hi, if_pos hi.1]
      refine ⟨⟨_, same, rfl⟩, ?_⟩
      have hx : xs[idx.toNat]? = some (xs[idx.toNat]'(by omega)) := List.getElem?_eq_getElem _
      simp only [contents, List.getElem?_map, hx, Option.map_some]
      obtain ⟨b, Fi, hb, gi, -⟩ := g.kid (i := idx.toNat) (x := xs[idx.toNat]'(by omega)) (by simp [Val.kids])
      simp only [Node.kids, hd] at hb
      rw [hb]
      exact ⟨trivial, Fi, gi⟩
    · rw [if_neg hi]
      refine ⟨⟨_, same, rfl⟩, ?_⟩
      by_cases h0 : 0 ≤ idx
      · rw [if_pos h0, List.getElem?_eq_none (by omega)]
      · rw [if_neg h0]
  · have : items E h p idx = (([], none), h) := by
      unfold items
      dsimp only
      rw [hd]
      revert n1 n2
      cases v.vt <;> simp
    rw [this, hc]
    refine ⟨⟨_, same, hc⟩, ?_⟩
    by_cases h0 : 0 ≤ idx
    · rw [if_pos h0]; rfl
    · rw [if_neg h0]

/-- There are `Count` of them. -/
theorem C87_count (E : Env) {h : Heap} {p : Ptr} {v : Val} {F : List Ptr} (g : Good h (some p) v F) : count (h.mem p) = (contents E v).length := by
  rw [C84_count g, ← contents_snd E v, List.length_map]

/-- The example object, whose first key is still escaped: `Items(0)` gives the name `/`. -/
example : (items envEx exHeap 5 0).1.1 = [47] := (C87_items envEx exGood 0).2.1

/-! ## C88: `Visit` and `KeyNameByIndex` -/

/-- Call a function for the entries of a list until it says stop. -/
def untilStop {α σ : Type} (f : α → σ → Bool × σ) : List α → σ → σ
  | [], s => s
  | a :: l, s =>
    match f a s with
    | (true, s) => untilStop f l s
    | (false, s) => s

/-- A callback that only reads. -/
def reader {σ : Type} (f : Bytes × Option Ptr → σ → Bool × σ) : Bytes → Option Ptr → σ × Heap → Bool × (σ × Heap) :=
  fun k q s => ((f (k, q) s.1).1, (f (k, q) s.1).2, s.2)

theorem visitLoop_reader {σ : Type} (list : Node → List (Bytes × Option Ptr)) (f : Bytes × Option Ptr → σ → Bool × σ) (p : Ptr) (h : Heap) :
    ∀ (fuel i : Nat) (s : σ), i ≤ (list (h.mem p)).length → (list (h.mem p)).length < fuel + i →
      visitLoop list (reader f) p fuel i (s, h) = .ok (untilStop f ((list (h.mem p)).drop i) s, h)
  | 0, i, s, hl, hf => by omega
  | fuel + 1, i, s, hl, hf => by
    rw [visitLoop]
    dsimp only
    by_cases hi : i < (list (h.mem p)).length
    · rw [List.getElem?_eq_getElem hi, List.drop_eq_getElem_cons hi]
      generalize (list (h.mem p))[i] = e
      obtain ⟨k, q⟩ := e
      simp only [reader, untilStop]
      rcases f (k, q) s with ⟨_ | _, s'⟩
      · rfl
      · exact visitLoop_reader list f p h fuel (i + 1) s' (by omega) (by omega)
    · rw [List.getElem?_eq_none (by omega), List.drop_eq_nil_of_le (by omega)]
      rfl

/-- What `Visit` goes through. -/
def entries (n : Node) : List (Bytes × Option Ptr) :=
  match n.dt with
  | .object => n.kvs
  | .array => n.arr.map (fun q => ([], q))
  | _ => []

theorem entries_snd (n : Node) : (entries n).map Prod.snd = Node.kids n := by
  unfold entries Node.kids
  cases n.dt <;> simp [Function.comp_def]

/-- The names have been unescaped. -/
def NamesReady : Val → Prop
  | .obj ku _ => ku = true
  | _ => True

/-- `Visit` with a callback that only reads calls it for the members in order, with name and value, until it says stop. Missing: objects
whose names still contain escapes, for which the names are wrong (see below), and callbacks that change the value. -/
theorem C88_visit_partial (E : Env) {σ : Type} (f : Bytes × Option Ptr → σ → Bool × σ) {h : Heap} {p : Ptr} {v : Val} {F : List Ptr}
    (g : Good h (some p) v F) (hv : NamesReady v) (s : σ) (fuel : Nat) (hf : (contents E v).length < fuel) :
    ∃ es, visit (reader f) fuel p (s, h) = .ok (untilStop f es s, h) ∧ es.length = (contents E v).length ∧
      ∀ (i : Nat) (kw : Bytes × Val), (contents E v)[i]? = some kw → ∃ q G, es[i]? = some (kw.1, q) ∧ Good h q kw.2 G := by
  refine ⟨entries (h.mem p), ?_, ?_, fun i kw hi => ?_⟩
  · have hc : (contents E v).length = (entries (h.mem p)).length := by
      rw [← List.length_map (f := Prod.snd), contents_snd, ← List.length_map (as := entries _) (f := Prod.snd), entries_snd, g.kids_length]
    rw [hc] at hf
    unfold visit
    dsimp only
    unfold entries at hf ⊢
    cases hd : (h.mem p).dt <;> simp only [hd] at hf ⊢ <;> first
      | rfl
      | (have := visitLoop_reader Node.kvs f p h fuel 0 s (Nat.zero_le _) (by simpa using hf); simpa using this)
      | (have := visitLoop_reader (fun n => n.arr.map (fun q => ([], q))) f p h fuel 0 s (Nat.zero_le _) (by simpa using hf); simpa using this)
  · rw [← List.length_map (f := Prod.snd), entries_snd, g.kids_length, ← contents_snd E, List.length_map]
  · have hk := congrArg (Option.map Prod.snd) hi
    rw [← List.getElem?_map, contents_snd] at hk
    obtain ⟨b, Fi, hb, gi, -⟩ := g.kid hk
    have hd := rep_dt g.rep
    rw [← entries_snd, List.getElem?_map] at hb
    cases hz : (entries (h.mem p))[i]? with
    | none => rw [hz] at hb; cases hb
    | some z =>
      rw [hz] at hb
      obtain ⟨z1, z2⟩ := z
      cases hb
      refine ⟨z2, Fi, ?_, gi⟩
      suffices z1 = kw.1 by rw [this]
      unfold entries at hz
      rw [hd] at hz
      cases v
      case obj ku kvs =>
        cases hv
        obtain ⟨F0, -, -, -, -, hm, -⟩ := g.obj_inv
        have hkeys := congrArg (fun l => l[i]?) (repM_iff.1 hm).1
        simp only [Val.vt] at hz
        simp only [contents, members] at hi
        simp only [List.getElem?_map, hz, hi, Option.map_some, Option.some.injEq] at hkeys
        exact hkeys
      case arr xs =>
        simp only [Val.vt, List.getElem?_map] at hz
        simp only [contents, List.getElem?_map] at hi
        cases hx : xs[i]? with
        | none => rw [hx] at hi; cases hi
        | some x =>
          rw [hx] at hi; cases hi
          cases hy : (h.mem p).arr[i]? with
          | none => rw [hy] at hz; cases hz
          | some y => rw [hy] at hz; cases hz; rfl
      all_goals simp [contents, members] at hi

/-- `KeyNameByIndex` gives the name of the member, with the same exception. -/
theorem C88_key_partial (E : Env) {h : Heap} {p : Ptr} {v : Val} {F : List Ptr} (g : Good h (some p) v F) (hv : NamesReady v) (idx : Int) :
    keyNameByIndex (h.mem p) idx = match (if 0 ≤ idx then (contents E v)[idx.toNat]? else none) with
      | none => []
      | some kw => kw.1 := by
  have hd := rep_dt g.rep
  unfold keyNameByIndex
  rw [hd]
  cases v
  case obj ku kvs =>
    cases hv
    obtain ⟨F0, -, -, -, -, hm, -⟩ := g.obj_inv
    have hkeys := (repM_iff.1 hm).1
    have hl := congrArg List.length hkeys
    simp only [List.length_map] at hl
    simp only [Val.vt, contents, members, inRange, Bool.and_eq_true, decide_eq_true_eq]
    by_cases h0 : 0 ≤ idx
    · by_cases h1 : idx < (h.mem p).kvs.length
      · rw [if_pos ⟨h0, h1⟩, if_pos h0, List.getElem?_eq_getElem (l := kvs) (by omega)]
        have hkeys := congrArg (fun l => l[idx.toNat]?) hkeys
        simp only [List.getElem?_map] at hkeys
        rw [hkeys, List.getElem?_eq_getElem (by omega)]
        rfl
      · rw [if_neg (fun h => h1 h.2), if_pos h0, List.getElem?_eq_none (by omega)]
    · rw [if_neg (fun h => h0 h.1), if_neg h0]
  case arr xs =>
    simp only [Val.vt, contents, List.getElem?_map]
    by_cases h0 : 0 ≤ idx
    · rw [if_pos h0]; cases xs[idx.toNat]? <;> rfl
    · rw [if_neg h0]
  all_goals simp [Val.vt, contents, members]

/-- The object `{"\/":1,"a":[…]}` of the example memory, as the JSON parser makes it: `Visit` and `KeyNameByIndex` give the name with its backslash,
`Items` without; and after `Items` also the others do. -/
theorem C88_escape_counterexample :
    (visit (reader (fun e s => (true, s ++ [e.1]))) 9 5 (([] : List Bytes), exHeap)).bind (fun r => .ok r.1) = .ok [[92, 47], [97]] ∧
    keyNameByIndex (exHeap.mem 5) 0 = [92, 47] ∧ (items envEx exHeap 5 0).1.1 = [47] ∧ keyNameByIndex ((items envEx exHeap 5 0).2.mem 5) 0 = [47] := by decide

/-- A callback that removes the element it is given makes `Visit` skip the next one: of three elements it sees two, and the second stays. -/
theorem C88_remove_counterexample :
    let h := ((Heap.init id).upd 5 (fun n => { n with dt := .array, arr := [some trueP, some falseP, some nullP] }))
    let cb : Bytes → Option Ptr → List (Option Ptr) × Heap → Bool × (List (Option Ptr) × Heap) := fun _ q s => (true, s.1 ++ [q], removeIndex s.2 5 s.1.length)
    (visit cb 9 5 ([], h)).bind (fun r => .ok (r.1, (r.2.mem 5).arr)) = .ok ([some trueP, some nullP], [some falseP]) := by decide

/-- An object with its names unescaped; the callback stops after the first member. -/
example : (visit (reader (fun e s => (false, s ++ [e.1]))) 9 5 (([] : List Bytes), (items envEx exHeap 5 0).2)).bind (fun r => .ok r.1) = .ok [[47]] := by decide

/-! ## C89: `String` -/

/-- `String` gives a text unless a binary shorter than 12 bytes (16 for a decimal) or, inside a container, a nil member is met. -/
theorem C89_string_partial (E : Env) {h : Heap} {p : Ptr} {v : Val} {F : List Ptr} (g : Good h (some p) v F)
    (hv : ¬ (Json.NilMember v ∨ Json.ShortBin v)) :
    ∃ t, (getString E (Json.value2FormatJson E .onlyAnsi false v) (h.mem p)).1 = .ok t := by
  rw [C84_string g]
  have hn := rep_ne_nil g.rep
  have hj := (Json.C65_format_panics E .onlyAnsi false v).2 (by simp only [hn, false_or]; exact hv)
  cases v
  case bin e b =>
    obtain ⟨t, ht⟩ := hj
    simp only [Json.value2FormatJson, Json.format, Res.bind_eq_ok] at ht
    obtain ⟨x, hx, -⟩ := ht
    exact ⟨x, (binShow_eq E e b).symm.trans hx⟩
  all_goals first | exact hj | exact ⟨_, rfl⟩ | exact absurd rfl hn

/-- A new binary value, and every one with less than 12 bytes: `String` panics. -/
theorem C89_binary_counterexample (E : Env) {h : Heap} {p : Ptr} {e : UInt8} {b : Bytes} {F : List Ptr} (g : Good h (some p) (.bin e b) F) (hb : b.length < 12) :
    (getString E .panic (h.mem p)).1 = .panic := by
  have s := g.shows
  simp only [Shows] at s
  simp only [getString, s, Json.binText, Json.upTo]
  split
  · rw [if_neg (by omega)]; rfl
  · split
    · rw [if_neg (by omega)]; rfl
    · rw [if_neg (by omega)]; rfl

example : (getString envEx .panic ((newValue (Heap.init id) .binary).2.mem (newValue (Heap.init id) .binary).1)).1 = .panic := by decide

end Dxs.Heap
