import Verif.Load.IntoJson

/-!
# `Marshal` and `Unmarshal` for `DxValue`

For other types the functions call `encoding/json`, which is not modelled.
-/

namespace Dxs.Heap
open Json (value2Json)

/-- `Marshal`, reflect_parse.go:1078-1087, of a `DxValue` or a `*DxValue`. The error is always nil. -/
def marshal (E : Env) (v : Val) : Res Bytes := value2Json E .allEscape true v

/-- `Unmarshal(data, v)` for a `*DxValue`, reflect_parse.go:1093-1094. -/
def unmarshal (E : Env) (h : Heap) (p : Ptr) (data : Bytes) : Out Unit := loadJsonH E h p data

/-- The first `n` places of an array whose places were all emptied by `Clear` (dxvalue.go:198-210) and then filled from the front with `xs`. -/
def slots {α : Type} (z : α) (n : Nat) (xs : List α) : List α := xs.take n ++ List.replicate (n - xs.length) z

/-- What the owner of a copied struct sees after the copy `q` was loaded. The members (the elements) of `p` are the first places of an array that
the copy shares: `Clear` empties the places, and what is appended to the copy is put there as long as it fits; members are appended one after the
other, and only the last one is written again (jsonparse.go:150-220). Slices that do not belong to the type of `p` are not followed. -/
def seen (h : Heap) (p q : Ptr) (h' : Heap) : Heap :=
  match (h.mem p).dt with
  | .object => h'.upd p (fun n => { n with kvs := slots ([], none) (h.mem p).kvs.length (if (h'.mem q).dt = .object then (h'.mem q).kvs else []) })
  | .array => h'.upd p (fun n => { n with arr := slots none (h.mem p).arr.length (if (h'.mem q).dt = .array then (h'.mem q).arr else []) })
  | _ => h'

/-- `Unmarshal(data, *v)`, for a `DxValue`, reflect_parse.go:1091-1092: Go copies the struct at `p`, and the copy is loaded. -/
def unmarshalByValue (E : Env) (h : Heap) (p : Ptr) (data : Bytes) : Out Unit :=
  let (q, h1) := h.new (h.mem p)
  match loadJsonH E h1 q data with
  | .ok a h' => .ok a (seen h p q h')
  | .err e h' => .err e (seen h p q h')
  | .panic => .panic
  | .loop => .loop

end Dxs.Heap
