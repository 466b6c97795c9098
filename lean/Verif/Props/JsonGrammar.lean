import Verif.Json.Grammar
import Verif.Props.Again

/-! # C134: exactly what the JSON decoder accepts, and as what

`NewValueFromJson` (jsonparse.go:410-432) against the grammar of Json/Grammar.lean, in both directions; and when a text outside JSON is read, its value shows it. -/

namespace Dxs.Json
open Spec
variable {E : Env}

/-- **C134**: the decoder gives `v` for `b` exactly when `b` is, between whitespace, an item of the grammar that stands for `v` there, or `v` is nil and `b` is, behind whitespace, a text of number bytes that ends the input. -/
theorem C134_exact (E : Env) (b : Bytes) (v : Val) : newValueFromJson E b = .ok v ↔
    (∃ w1 t w2, Ws w1 ∧ Ws w2 ∧ b = w1 ++ t ++ w2 ∧ Item E v t w2) ∨ (v = .nil ∧ ∃ w t, Ws w ∧ b = w ++ t ∧ t ≠ [] ∧ ∀ c ∈ t, NumByte c) := newValue_iff E b v

/-- C134, the other inputs: an error (never a panic, never an endless loop). -/
theorem C134_refused (E : Env) (b : Bytes) : (∃ e, newValueFromJson E b = .err e) ↔
    ¬ ((∃ v w1 t w2, Ws w1 ∧ Ws w2 ∧ b = w1 ++ t ++ w2 ∧ Item E v t w2) ∨ ∃ w t, Ws w ∧ b = w ++ t ∧ t ≠ [] ∧ ∀ c ∈ t, NumByte c) := by
  constructor
  · rintro ⟨e, he⟩ (⟨v, h⟩ | h)
    · have := (newValue_iff E b v).2 (.inl h); rw [he] at this; cases this
    · have := (newValue_iff E b .nil).2 (.inr ⟨rfl, h⟩); rw [he] at this; cases this
  · intro h
    rcases C21_total E b with ⟨v, hv⟩ | he
    · refine absurd ?_ h
      rcases (newValue_iff E b v).1 hv with h1 | ⟨_, h1⟩
      · exact .inl ⟨v, h1⟩
      · exact .inr h1
    · exact he

/-- Neither NAN nor INF. -/
def Finite : Val → Prop
  | .nan | .inf => False
  | _ => True

mutual
theorem item_text : ∀ {v : Val} {t r : Bytes}, Item E v t r → Leaves Finite v → ∃ d, Text d t ∧ denote E d = v
  | _, _, _, .null _, _ => ⟨.null, by rw [Text], rfl⟩
  | _, _, _, .tru _, _ => ⟨.tru, by rw [Text], rfl⟩
  | _, _, _, .fls _, _ => ⟨.fls, by rw [Text], rfl⟩
  | _, _, _, .str s _ h, _ => ⟨.str s, by rw [Text]; exact ⟨h, rfl⟩, rfl⟩
  | _, _, _, .num t _ _ h _, _ => ⟨.num t, by rw [Text]; exact ⟨h, rfl⟩, rfl⟩
  | _, _, _, .inf _ _ _ _ _, k | _, _, _, .nan _ _ _ _ _ _, k | _, _, _, .three _ _ _ _ _, k => k.elim
  | _, _, _, .arr0 w _ h, _ => ⟨.arr [], by rw [Text]; exact .inl ⟨rfl, w, h, rfl⟩, rfl⟩
  | _, _, _, .obj0 w _ h, _ => ⟨.obj [], by rw [Text]; exact .inl ⟨rfl, w, h, rfl⟩, rfl⟩
  | _, _, _, .arr xs t _ h, k => by
    obtain ⟨ds, h1, h2⟩ := items_text h k
    exact ⟨.arr ds, by rw [Text]; exact .inr ⟨t, h1, rfl⟩, by rw [denote, h2]⟩
  | _, _, _, .obj kvs t _ h, k => by
    obtain ⟨ds, h1, h2⟩ := members_text h k
    exact ⟨.obj ds, by rw [Text]; exact .inr ⟨t, h1, rfl⟩, by rw [denote, h2]⟩
theorem items_text : ∀ {vs : List Val} {t r : Bytes}, Items E vs t r → LeavesL Finite vs → ∃ ds, TextL ds t ∧ denoteL E ds = vs
  | _, _, _, .last w1 t w2 r v h1 h2 h, k => by
    obtain ⟨d, hd, e⟩ := item_text h k.1
    exact ⟨[d], by rw [TextL]; exact ⟨w1, t, w2, h1, h2, hd, .inl ⟨rfl, rfl⟩⟩, by rw [denoteL, denoteL, e]⟩
  | _, _, _, .more w1 t w2 u r v vs h1 h2 h hs, k => by
    obtain ⟨d, hd, e⟩ := item_text h k.1
    obtain ⟨ds, hds, es⟩ := items_text hs k.2
    exact ⟨d :: ds, by rw [TextL]; exact ⟨w1, t, w2, h1, h2, hd, .inr ⟨u, hds, rfl⟩⟩, by rw [denoteL, e, es]⟩
theorem members_text : ∀ {kvs : List (Bytes × Val)} {t r : Bytes}, Members E kvs t r → LeavesM Finite kvs → ∃ ds, TextM ds t ∧ denoteM E ds = kvs
  | _, _, _, .last w1 n w2 w3 t w4 r v h1 h2 h3 h4 hn h, k => by
    obtain ⟨d, hd, e⟩ := item_text h k.1
    exact ⟨[(n, d)], by rw [TextM]; exact ⟨w1, w2, w3, t, w4, h1, h2, h3, h4, hd, hn, .inl ⟨rfl, rfl⟩⟩, by rw [denoteM, denoteM, e]⟩
  | _, _, _, .more w1 n w2 w3 t w4 u r v kvs h1 h2 h3 h4 hn h hs, k => by
    obtain ⟨d, hd, e⟩ := item_text h k.1
    obtain ⟨ds, hds, es⟩ := members_text hs k.2
    exact ⟨(n, d) :: ds, by rw [TextM]; exact ⟨w1, w2, w3, t, w4, h1, h2, h3, h4, hd, hn, .inr ⟨u, hds, rfl⟩⟩, by rw [denoteM, e, es]⟩
end

/-- C134: a text that is read as a value without NAN and INF, other than nil, is a text of the grammar of RFC 8259 (as widened in Json/Spec.lean), and the value is what it describes. The converse of C18. -/
theorem C134_converse (E : Env) (b : Bytes) (v : Val) (h : newValueFromJson E b = .ok v) (hv : v ≠ .nil) (hf : Leaves Finite v) :
    ∃ d w1 t w2, Ws w1 ∧ Ws w2 ∧ b = w1 ++ t ++ w2 ∧ Text d t ∧ v = denote E d := by
  rcases (newValue_iff E b v).1 h with ⟨w1, t, w2, h1, h2, h3, hi⟩ | ⟨h, _⟩
  · obtain ⟨d, hd, e⟩ := item_text hi hf
    exact ⟨d, w1, t, w2, h1, h2, h3, hd, e.symm⟩
  · exact absurd h hv

/-- Together with C18: for values without NAN and INF that are no numbers and not nil, the decoder reads exactly the texts of the grammar. -/
theorem C134_texts (E : Env) (b : Bytes) (v : Val) (hv : v ≠ .nil ∧ v.vt ≠ .int ∧ v.vt ≠ .float) (hf : Leaves Finite v) :
    newValueFromJson E b = .ok v ↔ ∃ d w1 t w2, Ws w1 ∧ Ws w2 ∧ b = w1 ++ t ++ w2 ∧ Text d t ∧ v = denote E d := by
  constructor
  · intro h; exact C134_converse E b v h hv.1 hf
  · rintro ⟨d, w1, t, w2, h1, h2, rfl, h4, rfl⟩
    refine C18_decodes E d w1 t w2 h1 h2 h4 ?_
    rintro s rfl
    rw [denote] at hv
    split at hv
    · exact hv.2.2 rfl
    · exact hv.2.1 rfl

/-- `{"a":[nul]}` is an item, for an object with an array of NAN: the three bytes `nul` stand for NAN. -/
example (E : Env) : Item E (.obj false [([97], .arr [.nan])]) [123, 34, 97, 34, 58, 91, 110, 117, 108, 93, 125] [] :=
  .obj _ [34, 97, 34, 58, 91, 110, 117, 108, 93, 125] _
    (.last [] [97] [] [] [91, 110, 117, 108, 93] [] _ _ ws_nil ws_nil ws_nil ws_nil (by decide)
      (.arr _ [110, 117, 108, 93] _ (.last [] [110, 117, 108] [] _ _ ws_nil ws_nil (.three 117 108 _ (by decide) (by decide)))))

/-- `[+iNf]`; and `[1,]` is refused, so it is not in the grammar. -/
example : newValueFromJson envEx [91, 43, 105, 78, 102, 93] = .ok (.arr [.inf]) ∧ (∃ e, newValueFromJson envEx [91, 49, 44, 93] = .err e) ∧
    ¬ ∃ v w1 t w2, Ws w1 ∧ Ws w2 ∧ ([91, 49, 44, 93] : Bytes) = w1 ++ t ++ w2 ∧ Item envEx v t w2 := by
  have h : ∃ e, newValueFromJson envEx [91, 49, 44, 93] = .err e := ⟨_, rfl⟩
  exact ⟨by decide +kernel, h, fun hi => (C134_refused envEx _).1 h (.inl hi)⟩

/-- A value to which `C134_texts` applies. -/
example : Leaves Finite (.obj false [([97], .arr [.null, .int 0 (-7)])]) := ⟨⟨trivial, trivial, trivial⟩, trivial⟩

end Dxs.Json
