import Verif.Heap.Ask
import Verif.Tree.ParseDet
import Verif.Props.Read

/-!
# What programs print, on trees
-/

namespace Dxs.Heap

/-- The truth value of a value; of a number: whether the 64 bits of its word, as an integer, are positive. -/
def boolOf (E : Env) : Val → Bool
  | .int _ x | .float x | .double x | .dateTime x => decide (0 < x.toInt)
  | .tru => true
  | .str s | .raw s => E.equalFold s (ascii "true")
  | _ => false

/-- What a getter answers, from the tree alone. -/
def Get.onTree {τ : Type} (E : Env) (C : Clock τ) (v : Val) : Get → Res (Ans τ)
  | .type => .ok (.kind v.vt)
  | .count => .ok (.size (Val.kids v).length)
  | .int => .ok (.num (intOf E v))
  | .double => .ok (.num (doubleOf E v))
  | .float => .ok (.num32 (floatOf E v))
  | .bool => .ok (.flag (boolOf E v))
  | .string => (textOf E v).bind fun b => .ok (.text b)
  | .binary => .ok (.text (dataOf v))
  | .binLen => .ok (.size (dataOf v).length)
  | .binExtType => .ok (.byte (extTypeOf v))
  | .dateTime => .ok (.num (timeOf E C v))
  | .goTime => .ok (.time (goTimeOf E C v))
  | .duration d => .ok (.num (durationOf E C d v))
  | .msgPack => .ok (.text (MsgPack.value2MsgPack E v))
  | .json f st d => (if f then Json.value2FormatJson E st d v else Json.value2Json E st d v).bind fun b => .ok (.text b)
  | .bson => (Bson.toBson E v []).bind fun b => .ok (.text b)

mutual
/-- The value after the writers: `ToBson` (`full`) unescapes everything, `ToJson` without escapes the names of the objects that have members. -/
def softened (E : Env) (full : Bool) : Val → Val
  | .obj ku kvs => if full || !kvs.isEmpty then .obj true (unescKeys E ku (softenedM E full kvs)) else .obj ku kvs
  | .arr xs => .arr (softenedL E full xs)
  | .raw s => if full then .str (E.unesc s) else .raw s
  | v => v
/-- The members. -/
def softenedM (E : Env) (full : Bool) : List (Bytes × Val) → List (Bytes × Val)
  | [] => []
  | (k, v) :: kvs => (k, softened E full v) :: softenedM E full kvs
/-- The elements. -/
def softenedL (E : Env) (full : Bool) : List Val → List Val
  | [] => []
  | v :: vs => softened E full v :: softenedL E full vs
end

/-- The value after a getter: only strings that are read and names and strings that are written are unescaped. -/
def Get.after (E : Env) (v : Val) : Get → Val
  | .string | .duration _ => readOnce E v
  | .json _ .noEscape _ => softened E false v
  | .bson => softened E true v
  | _ => v

/-- A getter behind a path. -/
def Get.behind {τ : Type} (E : Env) (C : Clock τ) (d : Ans τ) (g : Get) : List Bytes → Val → Res (Ans τ) × Val
  | [], v => (g.onTree E C v, g.after E v)
  | k :: path, v =>
    match namePos E k v with
    | none => (.ok d, looked E k v)
    | some i =>
      match (Val.kids v)[i]? with
      | none | some .nil => (.ok d, looked E k v)
      | some w => ((g.behind E C d path w).1, Val.setKid (looked E k v) i (g.behind E C d path w).2)

/-- A question: the answer and the value afterwards. -/
def Ask.onTree {τ : Type} (E : Env) (C : Clock τ) (v : Val) : Ask τ → Res (Ans τ) × Val
  | .here g => (g.onTree E C v, g.after E v)
  | .path ps d g => g.behind E C d ps v
  | .index i d g =>
    match kidAt v i with
    | none | some .nil => (.ok d, v)
    | some w => (g.onTree E C w, Val.setKid v i.toNat (g.after E w))
  | .keyName i =>
    (.ok (.text (match v with
      | .obj _ kvs => if 0 ≤ i then ((kvs[i.toNat]?).map Prod.fst).getD [] else []
      | _ => [])), v)
  | .item i =>
    (.ok (.text (if 0 ≤ i then (((contents E v)[i.toNat]?).map Prod.fst).getD [] else [])),
      match v with
      | .obj ku kvs => if inRange i kvs.length then .obj true (unescKeys E ku kvs) else .obj ku kvs
      | v => v)

/-! ## The whole tree is read -/

theorem readM_full {m : Ptr → Node} {f : Nat} (ih : ∀ {v a F}, Rep m v a F → height v ≤ f → valOf f m a = some v) :
    ∀ {kvs : List (Bytes × Val)} {ps : List (Bytes × Option Ptr)} {F : List Ptr}, RepM m kvs ps F → heightM kvs ≤ f → readM (valOf f m) ps = some kvs
  | [], _, _, h, _ => by obtain ⟨rfl, -⟩ := h; rfl
  | (k, x) :: xs, _, _, h, hh => by
    obtain ⟨q, qs, F1, F2, rfl, rfl, h1, h2⟩ := h
    simp only [heightM] at hh
    dsimp only at h1
    simp only [readM, ih h1 (by omega), readM_full ih h2 (by omega), Option.bind_some, Option.map_some]

theorem readL_full {m : Ptr → Node} {f : Nat} (ih : ∀ {v a F}, Rep m v a F → height v ≤ f → valOf f m a = some v) :
    ∀ {xs : List Val} {ps : List (Option Ptr)} {F : List Ptr}, RepL m xs ps F → heightL xs ≤ f → readL (valOf f m) ps = some xs
  | [], _, _, h, _ => by obtain ⟨rfl, -⟩ := h; rfl
  | x :: xs, _, _, h, hh => by
    obtain ⟨q, qs, F1, F2, rfl, rfl, h1, h2⟩ := h
    simp only [heightL] at hh
    simp only [readL, ih h1 (by omega), readL_full ih h2 (by omega), Option.bind_some, Option.map_some]

theorem valOf_full {m : Ptr → Node} : ∀ {f : Nat} {v : Val} {a : Option Ptr} {F : List Ptr}, Rep m v a F → height v ≤ f → valOf f m a = some v
  | 0, v, _, _, _, hh => by cases v <;> simp [height] at hh
  | f + 1, v, none, _, h, _ => by obtain ⟨rfl, -⟩ := rep_none h; rfl
  | f + 1, v, some p, F, h, hh => by
    have hd := rep_dt h
    cases v with
    | nil => exact absurd rfl (rep_ne_nil h)
    | obj ku kvs =>
      obtain ⟨p', F0, he, -, -, hdt, hk, hm⟩ := h
      cases he
      simp only [height] at hh
      have hh : heightM kvs ≤ f := by omega
      simp only [valOf, hdt, readM_full (fun h1 h2 => valOf_full h1 h2) hm hh, Option.map_some, hk]
    | arr xs =>
      obtain ⟨p', F0, he, -, -, hdt, hm⟩ := h
      cases he
      simp only [height] at hh
      have hh : heightL xs ≤ f := by omega
      simp only [valOf, hdt, readL_full (fun h1 h2 => valOf_full h1 h2) hm hh, Option.map_some]
    | _ =>
      obtain ⟨p', he, -, hl⟩ := h
      cases he
      simp only [valOf, hd, Val.vt, hl]

mutual
theorem rep_height {m : Ptr → Node} : ∀ {v : Val} {a : Option Ptr} {F : List Ptr}, Rep m v a F → height v ≤ F.length + 1
  | .obj ku kvs, a, F, h => by
    obtain ⟨p', F0, -, -, rfl, -, -, hm⟩ := h
    have := repM_height hm
    simp only [height, List.length_cons]; omega
  | .arr xs, a, F, h => by
    obtain ⟨p', F0, -, -, rfl, -, hm⟩ := h
    have := repL_height hm
    simp only [height, List.length_cons]; omega
  | .nil, _, _, _ | .str _, _, _, _ | .raw _, _, _, _ | .int _ _, _, _, _ | .float _, _, _, _ | .double _, _, _, _ | .dateTime _, _, _, _ | .bin _ _, _, _, _
  | .exbin _ _, _, _, _ | .null, _, _, _ | .tru, _, _, _ | .fls, _, _, _ | .nan, _, _, _ | .inf, _, _, _ => by simp [height]
theorem repM_height {m : Ptr → Node} : ∀ {kvs : List (Bytes × Val)} {ps : List (Bytes × Option Ptr)} {F : List Ptr}, RepM m kvs ps F → heightM kvs ≤ F.length + 1
  | [], _, _, _ => by simp [heightM]
  | (k, x) :: xs, _, _, h => by
    obtain ⟨q, qs, F1, F2, rfl, rfl, h1, h2⟩ := h
    dsimp only at h1
    have := rep_height h1
    have := repM_height h2
    simp only [heightM, List.length_append]; omega
theorem repL_height {m : Ptr → Node} : ∀ {xs : List Val} {ps : List (Option Ptr)} {F : List Ptr}, RepL m xs ps F → heightL xs ≤ F.length + 1
  | [], _, _, _ => by simp [heightL]
  | x :: xs, _, _, h => by
    obtain ⟨q, qs, F1, F2, rfl, rfl, h1, h2⟩ := h
    have := rep_height h1
    have := repL_height h2
    simp only [heightL, List.length_append]; omega
end

/-- Different numbers below `n`: at most `n`. -/
theorem nodup_length : ∀ (n : Nat) (F : List Nat), F.Nodup → (∀ q ∈ F, q < n) → F.length ≤ n
  | 0, [], _, _ => Nat.le_refl _
  | 0, q :: _, _, h => absurd (h q (by simp)) (by omega)
  | n + 1, F, hn, h => by
    have h1 := nodup_length n (F.erase n) (hn.erase n) (fun q hq => by
      have := (hn.mem_erase_iff).1 hq
      have := h q this.2
      omega)
    have := List.length_erase (a := n) (l := F)
    split at this <;> omega

section
variable {h : Heap} {p : Ptr} {v : Val} {F : List Ptr}

theorem Good.fits (g : Good h (some p) v F) : height v ≤ h.next + 1 := by
  refine Nat.le_trans (rep_height g.rep) ?_
  have := nodup_length h.next F g.nodup (fun q hq => Nat.lt_of_not_le (fun hl => g.live q hq (Or.inl hl)))
  omega

theorem Good.seenAt (g : Good h (some p) v F) : seenAt h p = some v := valOf_full g.rep g.fits

theorem Good.written {α : Type} (g : Good h (some p) v F) (f : Val → Res α) : written h p f = f v := by
  unfold Heap.written; rw [g.seenAt]

/-- `Bool`. -/
theorem getBool_of (E : Env) (g : Good h (some p) v F) : getBool E (h.mem p) = boolOf E v := by
  have s := g.shows
  generalize h.mem p = n at s
  clear g
  shown v s hd <;> (unfold getBool; rw [hd]; try rfl)

/-! ## What the writers change -/

/-- `softenKids` on trees. -/
def softKids (r : Val → Val) : Nat → Nat → Val → Val
  | 0, _, v => v
  | n + 1, i, v =>
    softKids r n (i + 1)
      (match (Val.kids v)[i]? with
      | some .nil | none => v
      | some w => Val.setKid v i (r w))

/-- `soften` on trees. -/
def soft (E : Env) (full : Bool) : Nat → Val → Val
  | 0, v => v
  | f + 1, .obj ku kvs => softKids (soft E full f) kvs.length 0 (if full || !kvs.isEmpty then .obj true (unescKeys E ku kvs) else .obj ku kvs)
  | f + 1, .arr xs => softKids (soft E full f) xs.length 0 (.arr xs)
  | _ + 1, .raw s => if full then .str (E.unesc s) else .raw s
  | _ + 1, v => v

theorem softKids_exact {rec : Heap → Ptr → Heap} {r : Val → Val}
    (hr : ∀ {h : Heap} {q : Ptr} {w : Val} {G : List Ptr}, Good h (some q) w G → ∃ G', Upd h G (rec h q) (some q) (r w) G') :
    ∀ (n i : Nat) {h : Heap} {v : Val} {F : List Ptr}, Good h (some p) v F → ∃ F', Upd h F (softenKids rec p n i h) (some p) (softKids r n i v) F'
  | 0, _, _, _, F, g => ⟨F, g.upd_refl⟩
  | n + 1, i, h, v, F, g => by
    simp only [softenKids, softKids]
    cases hk : (Val.kids v)[i]? with
    | none =>
      have := List.getElem?_eq_none_iff.1 hk
      rw [List.getElem?_eq_none (by rw [g.kids_length]; exact this)]
      exact softKids_exact hr n (i + 1) g
    | some w =>
      obtain ⟨b, Fi, hb, gi, -, hu⟩ := g.kid hk
      rw [hb]
      cases b with
      | none =>
        rw [rep_nothing gi.rep]
        exact softKids_exact hr n (i + 1) g
      | some q =>
        have hn := rep_ne_nil gi.rep
        obtain ⟨Fi', u⟩ := hr gi
        obtain ⟨F', u'⟩ := hu [] _ _ _ u (by simp)
        obtain ⟨F'', u''⟩ := softKids_exact hr n (i + 1) u'.good
        have key : ∃ F'', Upd h F (softenKids rec p n (i + 1) (rec h q)) (some p) (softKids r n (i + 1) (Val.setKid v i (r w))) F'' := ⟨F'', UpdX.trans u' u''⟩
        cases w <;> first | exact absurd rfl hn | exact key

theorem soft_exact (E : Env) (full : Bool) : ∀ (f : Nat) {h : Heap} {p : Ptr} {v : Val} {F : List Ptr}, Good h (some p) v F →
    ∃ F', Upd h F (soften E full f h p) (some p) (soft E full f v) F'
  | 0, _, _, _, F, g => ⟨F, g.upd_refl⟩
  | f + 1, h, p, v, F, g => by
    have hd := rep_dt g.rep
    unfold soften
    cases v with
    | nil => exact absurd rfl (rep_ne_nil g.rep)
    | obj ku kvs =>
      simp only [Val.vt] at hd
      have hl : (h.mem p).kvs.length = kvs.length := by simpa [Node.kids, hd, Val.kids] using g.kids_length
      have he : (h.mem p).kvs.isEmpty = kvs.isEmpty := by
        revert hl
        cases (h.mem p).kvs <;> cases kvs <;> simp
      simp only [hd, hl, he, soft]
      split
      · have u := unesc_upd E g
        have e : (h.set p { h.mem p with dt := .object, ku := true, kvs := unescKeys E (h.mem p).ku (h.mem p).kvs }) = unescAll E h p := by
          unfold unescAll Heap.upd
          congr 1
          rw [← hd]
        rw [e] at u
        obtain ⟨F', u'⟩ := softKids_exact (fun g => soft_exact E full f g) kvs.length 0 u.good
        exact ⟨F', UpdX.trans u u'⟩
      · exact softKids_exact (fun g => soft_exact E full f g) kvs.length 0 g
    | arr xs =>
      simp only [Val.vt] at hd
      simp only [hd, soft, show (h.mem p).arr.length = xs.length by simpa [Node.kids, hd, Val.kids] using g.kids_length]
      exact softKids_exact (fun g => soft_exact E full f g) xs.length 0 g
    | raw s =>
      simp only [Val.vt] at hd
      simp only [hd, soft]
      split
      · exact ⟨F, C84_string_after (E := E) g .panic⟩
      · exact ⟨F, g.upd_refl⟩
    | _ =>
      simp only [Val.vt] at hd
      simp only [hd, soft]
      exact ⟨F, g.upd_refl⟩

theorem softKids_arr (r : Val → Val) (hr : r .nil = .nil) : ∀ (xs pre : List Val), softKids r xs.length pre.length (.arr (pre ++ xs)) = .arr (pre ++ xs.map r)
  | [], pre => by simp [softKids]
  | x :: xs, pre => by
    have ih := softKids_arr r hr xs (pre ++ [r x])
    simp only [List.length_append, List.length_singleton, List.append_assoc, List.singleton_append] at ih
    simp only [List.length_cons, softKids, Val.kids, List.getElem?_append_right (Nat.le_refl _), Nat.sub_self, List.getElem?_cons_zero, List.map_cons]
    rw [← ih]
    congr 1
    cases x with
    | nil => simp [hr]
    | _ => simp [Val.setKid]

theorem softKids_obj (r : Val → Val) (hr : r .nil = .nil) (ku : Bool) : ∀ (kvs pre : List (Bytes × Val)),
    softKids r kvs.length pre.length (.obj ku (pre ++ kvs)) = .obj ku (pre ++ kvs.map fun kv => (kv.1, r kv.2))
  | [], pre => by simp [softKids]
  | (k, x) :: kvs, pre => by
    have ih := softKids_obj r hr ku kvs (pre ++ [(k, r x)])
    simp only [List.length_append, List.length_singleton, List.append_assoc, List.singleton_append] at ih
    have hx : (Val.kids (.obj ku (pre ++ (k, x) :: kvs)))[pre.length]? = some x := by simp [Val.kids]
    have hm : ∀ y : Val, (pre ++ (k, x) :: kvs).modify pre.length (fun kv => (kv.1, y)) = pre ++ (k, y) :: kvs := by
      intro y
      clear hx ih
      induction pre with
      | nil => rfl
      | cons z pre ih => exact congrArg (z :: ·) ih
    simp only [List.length_cons, softKids, hx, List.map_cons]
    rw [← ih]
    congr 1
    cases x with
    | nil => simp [hr]
    | _ => simp only [Val.setKid, hm]

theorem softenedM_eq (E : Env) (full : Bool) : ∀ kvs : List (Bytes × Val), softenedM E full kvs = kvs.map fun kv => (kv.1, softened E full kv.2)
  | [] => rfl
  | (_, _) :: kvs => by simp [softenedM, softenedM_eq E full kvs]

theorem softenedL_eq (E : Env) (full : Bool) : ∀ xs : List Val, softenedL E full xs = xs.map (softened E full)
  | [] => rfl
  | _ :: xs => by simp [softenedL, softenedL_eq E full xs]

theorem height_memL : ∀ {xs : List Val} {x : Val}, x ∈ xs → height x ≤ heightL xs
  | _ :: xs, x, h => by
    simp only [heightL]
    rcases List.mem_cons.1 h with rfl | h
    · omega
    · have := height_memL h; omega

theorem soft_full (E : Env) (full : Bool) : ∀ (f : Nat) (v : Val), height v ≤ f → soft E full f v = softened E full v
  | 0, v, h => by cases v <;> simp [height] at h
  | f + 1, v, h => by
    have hn : soft E full f .nil = .nil := by cases f <;> rfl
    cases v with
    | obj ku kvs =>
      simp only [height, heightM_eq] at h
      have e : ∀ k' kvs', kvs'.map Prod.snd = kvs.map Prod.snd → softKids (soft E full f) kvs.length 0 (.obj k' kvs') = .obj k' (kvs'.map fun kv => (kv.1, softened E full kv.2)) := by
        intro k' kvs' hk
        have hl : kvs'.length = kvs.length := by simpa using congrArg List.length hk
        have := softKids_obj (soft E full f) hn k' kvs' []
        simp only [List.length_nil, List.nil_append] at this
        rw [← hl, this]
        congr 1
        refine List.map_congr_left fun kv hkv => ?_
        rw [soft_full E full f kv.2]
        have := height_memL (show kv.2 ∈ kvs.map Prod.snd from hk ▸ List.mem_map_of_mem hkv)
        omega
      have hs : (unescKeys E ku kvs).map Prod.snd = kvs.map Prod.snd := by unfold unescKeys; split <;> simp
      simp only [soft, softened]
      split
      · rw [e true _ hs, softenedM_eq]
        unfold unescKeys
        split <;> simp [Function.comp_def]
      · rename_i hc
        simp at hc
        rw [e ku kvs rfl, hc.2]
        rfl
    | arr xs =>
      simp only [height] at h
      have := softKids_arr (soft E full f) hn xs []
      simp only [List.length_nil, List.nil_append] at this
      simp only [soft, softened, this, softenedL_eq]
      congr 1
      refine List.map_congr_left fun x hx => soft_full E full f x ?_
      have := height_memL hx
      omega
    | _ => simp [soft, softened]

theorem softened_exact (E : Env) (full : Bool) (g : Good h (some p) v F) : ∃ F', Upd h F (soften E full (h.next + 1) h p) (some p) (softened E full v) F' := by
  rw [← soft_full E full (h.next + 1) v g.fits]
  exact soft_exact E full _ g

theorem softenKids_step {X : CId → Prop} {rec : Heap → Ptr → Heap} (hr : ∀ {h : Heap} (q : Ptr), Inv h → Step X h (rec h q)) (p : Ptr) :
    ∀ (n i : Nat) {h : Heap}, Inv h → Step X h (softenKids rec p n i h)
  | 0, _, _, I => Step.refl I
  | n + 1, i, h, I => by
    simp only [softenKids]
    split
    · rename_i q _
      have st := hr q I
      exact st.trans (softenKids_step hr p n (i + 1) st.inv)
    · exact softenKids_step hr p n (i + 1) I

theorem soften_step {X : CId → Prop} (E : Env) (full : Bool) : ∀ (f : Nat) {h : Heap} (p : Ptr), Inv h → Step X h (soften E full f h p)
  | 0, _, _, I => Step.refl I
  | f + 1, h, p, I => by
    unfold soften
    split
    · split
      · have st := I.unescAll_st (X := X) E p
        exact st.trans (softenKids_step (fun q I => soften_step E full f q I) p _ 0 st.inv)
      · exact softenKids_step (fun q I => soften_step E full f q I) p _ 0 I
    · exact softenKids_step (fun q I => soften_step E full f q I) p _ 0 I
    · split
      · exact I.getString_st E _ p
      · exact Step.refl I
    · exact Step.refl I

/-! ## Getters and questions -/

/-- `Duration` changes what `String` changes. -/
theorem getDuration_node {τ : Type} (E : Env) (C : Clock τ) (n : Node) (d : BitVec 64) (json : Res Bytes) : (getDuration E C n d).2 = (getString E json n).2 := by
  unfold getDuration getString
  cases n.dt <;> rfl

theorem Get.exact {τ : Type} (E : Env) (C : Clock τ) (g : Good h (some p) v F) (a : Get) :
    (a.run E C h p).1 = a.onTree E C v ∧ ∃ F', Upd h F (a.run E C h p).2 (some p) (a.after E v) F' := by
  have same : ∃ F', Upd h F h (some p) v F' := ⟨F, g.upd_refl⟩
  cases a with
  | type => exact ⟨by simp only [Get.run, Get.onTree, rep_dt g.rep], same⟩
  | count => exact ⟨by simp only [Get.run, Get.onTree, C84_count g], same⟩
  | int => exact ⟨by simp only [Get.run, Get.onTree, C84_int g], same⟩
  | double => exact ⟨by simp only [Get.run, Get.onTree, C84_double g], same⟩
  | float => exact ⟨by simp only [Get.run, Get.onTree, C84_float g], same⟩
  | bool => exact ⟨by simp only [Get.run, Get.onTree, getBool_of E g], same⟩
  | string => exact ⟨by simp only [Get.run, Get.onTree, g.written, C84_string g], F, C84_string_after g _⟩
  | binary => exact ⟨by simp only [Get.run, Get.onTree, (C84_binary g).1], same⟩
  | binLen => exact ⟨by simp only [Get.run, Get.onTree, (C84_binary g).2.1], same⟩
  | binExtType => exact ⟨by simp only [Get.run, Get.onTree, (C84_binary g).2.2], same⟩
  | dateTime => exact ⟨by simp only [Get.run, Get.onTree, C84_time C g], same⟩
  | goTime => exact ⟨by simp only [Get.run, Get.onTree, C84_goTime C g], same⟩
  | duration d =>
    refine ⟨by simp only [Get.run, Get.onTree, C84_duration C g], ?_⟩
    simp only [Get.run, Get.after, getDuration_node E C _ d .panic]
    exact ⟨F, C84_string_after g _⟩
  | msgPack => exact ⟨by simp only [Get.run, Get.onTree, g.written], same⟩
  | json f st d =>
    refine ⟨by simp only [Get.run, Get.onTree, g.written], ?_⟩
    cases st with
    | noEscape => exact softened_exact E false g
    | _ => exact same
  | bson => exact ⟨by simp only [Get.run, Get.onTree, g.written], softened_exact E true g⟩

theorem Get.behind_exact {τ : Type} (E : Env) (C : Clock τ) (d : Ans τ) (a : Get) : ∀ (ps : List Bytes) {h : Heap} {p : Ptr} {v : Val} {F : List Ptr}, Good h (some p) v F →
    ((Ask.path ps d a).run E C h p).1 = (a.behind E C d ps v).1 ∧ ∃ F', Upd h F ((Ask.path ps d a).run E C h p).2 (some p) (a.behind E C d ps v).2 F'
  | [], _, _, _, _, g => by
    exact Get.exact E C g a
  | k :: path, h, p, v, F, g => by
    obtain ⟨u, hq⟩ := valueByName_exact E g k
    simp only [Ask.run, valueByPath, Get.behind]
    generalize valueByName E h p k = r at u hq
    obtain ⟨_ | q, h1⟩ := r
    · simp only at hq
      rcases hq with hq | ⟨i, hq, hn⟩
      · simp only [hq]; exact ⟨trivial, _, u⟩
      · simp only [hq, hn]; exact ⟨trivial, _, u⟩
    · obtain ⟨i, w, Fq, hi, hw, hn, gq, hup⟩ := hq
      obtain ⟨e, Fq', u2⟩ := Get.behind_exact E C d a path gq
      obtain ⟨F', u3⟩ := hup _ _ Fq' u2
      simp only [hi, hw]
      cases w <;> first | exact absurd rfl hn | exact ⟨e, F', u3⟩

theorem Ask.exact {τ : Type} (E : Env) (C : Clock τ) (g : Good h (some p) v F) (a : Ask τ) :
    (a.run E C h p).1 = (a.onTree E C v).1 ∧ ∃ F', Upd h F (a.run E C h p).2 (some p) (a.onTree E C v).2 F' := by
  cases a with
  | here a =>
    exact Get.exact E C g a
  | path ps d a => exact Get.behind_exact E C d a ps g
  | index i d a =>
    simp only [Ask.run, Ask.onTree]
    cases hk : kidAt v i with
    | none =>
      have hc := C84_valueByIndex g i
      rw [hk] at hc
      rw [hc]
      exact ⟨rfl, F, g.upd_refl⟩
    | some w =>
      unfold kidAt at hk
      split at hk
      · obtain ⟨b, Fi, hb, gi, -, hu⟩ := g.kid hk
        have e : valueByIndex (h.mem p) i = b := by
          rw [valueByIndex_eq, if_pos ‹_›, hb]; rfl
        rw [e]
        cases b with
        | none =>
          rw [rep_nothing gi.rep]
          exact ⟨rfl, F, g.upd_refl⟩
        | some q =>
          have hn := rep_ne_nil gi.rep
          obtain ⟨h1, Fi', h2⟩ := Get.exact E C gi a
          have key := And.intro h1 (hu [] _ _ _ h2 (by simp))
          cases w <;> first | exact absurd rfl hn | exact key
      · cases hk
  | keyName i =>
    refine ⟨?_, F, g.upd_refl⟩
    simp only [Ask.run, Ask.onTree, Res.ok.injEq, Ans.text.injEq]
    have hd := rep_dt g.rep
    unfold keyNameByIndex
    rw [hd]
    cases v with
    | nil => exact absurd rfl (rep_ne_nil g.rep)
    | obj ku kvs =>
      obtain ⟨F0, -, -, -, -, hm, -⟩ := g.obj_inv
      have hk := (repM_iff.1 hm).1
      have hl : (h.mem p).kvs.length = kvs.length := by simpa using congrArg List.length hk
      have hi := congrArg (fun l => l[i.toNat]?) hk
      simp only [List.getElem?_map] at hi
      simp only [Val.vt, inRange, Bool.and_eq_true, decide_eq_true_eq, hi, hl]
      by_cases h0 : 0 ≤ i
      · by_cases h1 : i < kvs.length
        · rw [if_pos ⟨h0, h1⟩, if_pos h0]
        · rw [if_neg (fun h => h1 h.2), if_pos h0, List.getElem?_eq_none (by omega)]; rfl
      · rw [if_neg (fun h => h0 h.1), if_neg h0]
    | _ => rfl
  | item i =>
    constructor
    · obtain ⟨-, hi⟩ := C87_items E g i
      simp only [Ask.run, Ask.onTree, Res.ok.injEq, Ans.text.injEq]
      by_cases h0 : 0 ≤ i
      · rw [if_pos h0] at hi ⊢
        cases hc : (contents E v)[i.toNat]? with
        | none => rw [hc] at hi; rw [hi]; rfl
        | some kw => rw [hc] at hi; rw [hi.1]; rfl
      · rw [if_neg h0] at hi ⊢
        rw [hi]
    · obtain ⟨c, v', F', e, u⟩ := items_exact (E := E) g i
      refine ⟨F', ?_⟩
      have : v' = ((Ask.item i : Ask τ).onTree E C v).2 := by
        cases v <;> (cases e; rfl)
      rw [← this]
      exact u

theorem Get.step {τ : Type} {X : CId → Prop} (E : Env) (C : Clock τ) (I : Inv h) (p : Ptr) (a : Get) : Step X h (a.run E C h p).2 := by
  cases a with
  | string => exact I.getString_st E _ p
  | duration d =>
    simp only [Get.run, getDuration_node E C _ d .panic]
    exact I.getString_st E _ p
  | json f st d =>
    simp only [Get.run]
    split
    · exact soften_step E false _ p I
    · exact Step.refl I
  | bson => exact soften_step E true _ p I
  | _ => exact Step.refl I

theorem Ask.step {τ : Type} {X : CId → Prop} (E : Env) (C : Clock τ) (I : Inv h) (p : Ptr) (a : Ask τ) : Step X h (a.run E C h p).2 := by
  cases a with
  | here a => exact Get.step E C I p a
  | path ps d a =>
    have st := Inv.valueByPath_st (X := X) E ps I p
    simp only [Ask.run]
    generalize valueByPath E h p ps = r at st
    obtain ⟨_ | q, h1⟩ := r
    · exact st
    · exact st.trans (Get.step E C st.inv q a)
  | index i d a =>
    simp only [Ask.run]
    cases valueByIndex (h.mem p) i with
    | none => exact Step.refl I
    | some q => exact Get.step E C I q a
  | keyName i => exact Step.refl I
  | item i => exact I.items_st E p i

/-- Questions about the shared constants change nothing. -/
theorem Ask.const {τ : Type} (E : Env) (C : Clock τ) (I : Inv h) (h5 : p < 5) (a : Ask τ) : (a.run E C h p).2 = h := by
  have hc : (h.mem p).dt = .null ∨ (h.mem p).dt = .true ∨ (h.mem p).dt = .false ∨ (h.mem p).dt = .nan ∨ (h.mem p).dt = .inf := by
    rw [I.const p h5]
    unfold constVT
    repeat' split
    all_goals simp
  have get : ∀ g : Get, (g.run E C h p).2 = h := by
    intro g
    have e : ∀ json, h.set p (getString E json (h.mem p)).2 = h := by
      intro json
      have : (getString E json (h.mem p)).2 = h.mem p := by
        unfold getString
        rcases hc with hc | hc | hc | hc | hc <;> rw [hc]
      rw [this, set_self]
    have so : ∀ full, soften E full (h.next + 1) h p = h := by
      intro full
      unfold soften
      rcases hc with hc | hc | hc | hc | hc <;> rw [hc]
    cases g with
    | string => exact e _
    | duration d => simp only [Get.run, getDuration_node E C _ d .panic]; exact e _
    | json f st d =>
      simp only [Get.run]
      split
      · exact so false
      · rfl
    | bson => exact so true
    | _ => rfl
  cases a with
  | here a => exact get a
  | path ps d a =>
    cases ps with
    | nil => exact get a
    | cons k ps =>
      have : valueByName E h p k = (none, h) := by
        unfold valueByName
        rcases hc with hc | hc | hc | hc | hc <;> rw [hc]
      simp only [Ask.run, valueByPath, this]
  | index i d a =>
    have : valueByIndex (h.mem p) i = none := by
      unfold valueByIndex
      rcases hc with hc | hc | hc | hc | hc <;> rw [hc]
    simp only [Ask.run, this]
  | keyName i => rfl
  | item i =>
    simp only [Ask.run]
    unfold items
    rcases hc with hc | hc | hc | hc | hc <;> simp only [hc]

end

end Dxs.Heap
