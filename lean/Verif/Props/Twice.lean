import Verif.Props.Ask

/-!
# C123, C124: asking again, and asking something else before

The getters and writers are not pure: `String`, `Duration`, `ToBson`, `ToJson` without escapes and every lookup by name unescape what they meet. C123: a question asked again has the
same answer, and asking again changes nothing. C124: on values with nothing to unescape questions change nothing, so that their order does not matter; otherwise it does.
-/

namespace Dxs.Heap

/-! ## The writers -/

theorem toJsonL_cons (E : Env) (st : Json.Style) (d : Bool) {v : Val} (hn : v ≠ .nil) (vs : List Val) (i : Nat) (dst : Bytes) :
    Json.toJsonL E st d (v :: vs) i dst = (Json.toJson E st d v (if i ≠ 0 then dst ++ [44] else dst) >>= fun x => Json.toJsonL E st d vs (i + 1) x) := by
  cases v <;> first | exact absurd rfl hn | rfl

theorem formatL_cons (E : Env) (st : Json.Style) (d : Bool) {v : Val} (hn : v ≠ .nil) (vs : List Val) (i l : Nat) (dst : Bytes) :
    Json.formatL E st d (v :: vs) i l dst =
      (Json.format E st d v (l + 1) ((if i ≠ 0 then dst ++ [44, 13, 10] else dst) ++ Json.spaces (l + 1)) >>= fun x => Json.formatL E st d vs (i + 1) l x) := by
  cases v <;> first | exact absurd rfl hn | rfl

theorem softened_nil {E : Env} {full : Bool} {v : Val} : softened E full v = .nil ↔ v = .nil := by
  cases v with
  | obj ku kvs => simp only [softened]; split <;> simp
  | raw s => simp only [softened]; split <;> simp
  | _ => simp [softened]

mutual
theorem toJson_softened (E : Env) (d : Bool) : ∀ (v : Val) (dst : Bytes), Json.toJson E .noEscape d (softened E false v) dst = Json.toJson E .noEscape d v dst
  | .obj ku [], dst => by simp [softened]
  | .obj ku (kv :: kvs), dst => by
    have h := toJsonM_softened E d ku (kv :: kvs)
    simp only [softened, List.isEmpty_cons, Bool.not_false, Bool.or_true, if_true, Json.toJson, h]
  | .arr xs, dst => by
    have h := toJsonL_softened E d xs
    simp only [softened, Json.toJson, h]
  | .raw _, _ => by simp [softened]
  | .nil, _ | .str _, _ | .int _ _, _ | .float _, _ | .double _, _ | .dateTime _, _ | .bin _ _, _ | .exbin _ _, _ | .null, _ | .tru, _ | .fls, _ | .nan, _ | .inf, _ => rfl
theorem toJsonM_softened (E : Env) (d ku : Bool) : ∀ (kvs : List (Bytes × Val)) (i : Nat) (dst : Bytes),
    Json.toJsonM E .noEscape d true (unescKeys E ku (softenedM E false kvs)) i dst = Json.toJsonM E .noEscape d ku kvs i dst
  | [], _, _ => by cases ku <;> rfl
  | (k, v) :: kvs, i, dst => by
    have h := toJson_softened E d v
    have hm := toJsonM_softened E d ku kvs
    cases ku
    · simp only [softenedM, unescKeys, Bool.false_eq_true, if_false, List.map_cons, Json.toJsonM, Json.keyText, if_true, h] at hm ⊢
      simp only [hm]
    · simp only [softenedM, unescKeys, if_true, Json.toJsonM, Json.keyText, h] at hm ⊢
      simp only [hm]
theorem toJsonL_softened (E : Env) (d : Bool) : ∀ (vs : List Val) (i : Nat) (dst : Bytes),
    Json.toJsonL E .noEscape d (softenedL E false vs) i dst = Json.toJsonL E .noEscape d vs i dst
  | [], _, _ => rfl
  | v :: vs, i, dst => by
    have h := toJson_softened E d v
    have hl := toJsonL_softened E d vs
    by_cases hv : v = .nil
    · subst hv
      simp only [softenedL, softened, Json.toJsonL, hl]
    · rw [softenedL, toJsonL_cons E _ d hv, toJsonL_cons E _ d (fun e => hv (softened_nil.1 e)), h]
      simp only [hl]
end

mutual
theorem format_softened (E : Env) (d : Bool) : ∀ (v : Val) (l : Nat) (dst : Bytes), Json.format E .noEscape d (softened E false v) l dst = Json.format E .noEscape d v l dst
  | .obj ku [], l, dst => by simp [softened]
  | .obj ku (kv :: kvs), l, dst => by
    have h := formatM_softened E d ku (kv :: kvs)
    simp only [softened, List.isEmpty_cons, Bool.not_false, Bool.or_true, if_true, Json.format, h]
  | .arr xs, l, dst => by
    have h := formatL_softened E d xs
    simp only [softened, Json.format, h]
  | .raw _, _, _ => by simp [softened]
  | .nil, _, _ | .str _, _, _ | .int _ _, _, _ | .float _, _, _ | .double _, _, _ | .dateTime _, _, _ | .bin _ _, _, _ | .exbin _ _, _, _ | .null, _, _ | .tru, _, _ | .fls, _, _ | .nan, _, _
  | .inf, _, _ => rfl
theorem formatM_softened (E : Env) (d ku : Bool) : ∀ (kvs : List (Bytes × Val)) (i l : Nat) (dst : Bytes),
    Json.formatM E .noEscape d true (unescKeys E ku (softenedM E false kvs)) i l dst = Json.formatM E .noEscape d ku kvs i l dst
  | [], _, _, _ => by cases ku <;> rfl
  | (k, v) :: kvs, i, l, dst => by
    have h := format_softened E d v
    have hm := formatM_softened E d ku kvs
    cases ku
    · simp only [softenedM, unescKeys, Bool.false_eq_true, if_false, List.map_cons, Json.formatM, Json.keyText, if_true, h] at hm ⊢
      simp only [hm]
    · simp only [softenedM, unescKeys, if_true, Json.formatM, Json.keyText, h] at hm ⊢
      simp only [hm]
theorem formatL_softened (E : Env) (d : Bool) : ∀ (vs : List Val) (i l : Nat) (dst : Bytes),
    Json.formatL E .noEscape d (softenedL E false vs) i l dst = Json.formatL E .noEscape d vs i l dst
  | [], _, _, _ => rfl
  | v :: vs, i, l, dst => by
    have h := format_softened E d v (l + 1)
    have hl := formatL_softened E d vs
    by_cases hv : v = .nil
    · subst hv
      simp only [softenedL, softened, Json.formatL, hl]
    · rw [softenedL, formatL_cons E _ d hv, formatL_cons E _ d (fun e => hv (softened_nil.1 e)), h]
      simp only [hl]
end

theorem elementType_softened (E : Env) (v : Val) : Bson.elementType (softened E true v) = Bson.elementType v := by
  cases v <;> simp [softened, Bson.elementType]

mutual
theorem writeValue_softened (E : Env) : ∀ (v : Val) (dst : Bytes), Bson.writeValue E (softened E true v) dst = Bson.writeValue E v dst
  | .obj ku kvs, dst => by
    have h := writeMembers_softened E ku kvs
    simp only [softened, Bool.true_or, if_true, Bson.writeValue, h]
  | .arr xs, dst => by
    have h := writeElems_softened E xs
    simp only [softened, Bson.writeValue, h]
  | .raw s, _ => by simp [softened, Bson.writeValue, Bson.simpleValue]
  | .nil, _ | .str _, _ | .int _ _, _ | .float _, _ | .double _, _ | .dateTime _, _ | .bin _ _, _ | .exbin _ _, _ | .null, _ | .tru, _ | .fls, _ | .nan, _ | .inf, _ => rfl
theorem writeMembers_softened (E : Env) (ku : Bool) : ∀ (kvs : List (Bytes × Val)) (dst : Bytes),
    Bson.writeMembers E true (unescKeys E ku (softenedM E true kvs)) dst = Bson.writeMembers E ku kvs dst
  | [], _ => by cases ku <;> rfl
  | (k, v) :: kvs, dst => by
    have h := writeValue_softened E v
    have hm := writeMembers_softened E ku kvs
    cases ku
    · simp only [softenedM, unescKeys, Bool.false_eq_true, if_false, List.map_cons, Bson.writeMembers, if_true, h, elementType_softened] at hm ⊢
      simp only [hm]
    · simp only [softenedM, unescKeys, if_true, Bson.writeMembers, h, elementType_softened] at hm ⊢
      simp only [hm]
theorem writeElems_softened (E : Env) : ∀ (vs : List Val) (i : Nat) (dst : Bytes), Bson.writeElems E (softenedL E true vs) i dst = Bson.writeElems E vs i dst
  | [], _, _ => rfl
  | v :: vs, i, dst => by
    have h := writeValue_softened E v
    have hl := writeElems_softened E vs
    simp only [softenedL, Bson.writeElems, h, hl, elementType_softened]
end

mutual
theorem softened_again (E : Env) (full : Bool) : ∀ v : Val, softened E full (softened E full v) = softened E full v
  | .obj ku kvs => by
    have h := softenedM_again E full kvs
    simp only [softened]
    split
    · rename_i hk
      have hk' : (full || !(unescKeys E ku (softenedM E full kvs)).isEmpty) = true := by
        have : (unescKeys E ku (softenedM E full kvs)).isEmpty = kvs.isEmpty := by
          cases ku <;> cases kvs <;> simp [unescKeys, softenedM]
        rw [this]; exact hk
      have hu : softenedM E full (unescKeys E ku (softenedM E full kvs)) = unescKeys E ku (softenedM E full kvs) := by
        cases ku
        · simp only [unescKeys, Bool.false_eq_true, if_false, softenedM_eq, List.map_map] at h ⊢
          refine List.map_congr_left (fun kv hkv => ?_)
          have := List.map_inj_left.1 h kv hkv
          simpa using this
        · exact h
      simp only [softened, hk', if_true, hu, unescKeys_true]
    · rename_i hk
      simp only [softened, hk]
      simp
  | .arr xs => by
    have h := softenedL_again E full xs
    simp only [softened, h]
  | .raw s => by cases full <;> simp [softened]
  | .nil | .str _ | .int _ _ | .float _ | .double _ | .dateTime _ | .bin _ _ | .exbin _ _ | .null | .tru | .fls | .nan | .inf => rfl
theorem softenedM_again (E : Env) (full : Bool) : ∀ kvs : List (Bytes × Val), softenedM E full (softenedM E full kvs) = softenedM E full kvs
  | [] => rfl
  | (k, v) :: kvs => by simp only [softenedM, softened_again E full v, softenedM_again E full kvs]
theorem softenedL_again (E : Env) (full : Bool) : ∀ xs : List Val, softenedL E full (softenedL E full xs) = softenedL E full xs
  | [] => rfl
  | v :: vs => by simp only [softenedL, softened_again E full v, softenedL_again E full vs]
end

/-! ## The getters -/

theorem Get.after_nil {E : Env} {g : Get} {v : Val} : g.after E v = .nil ↔ v = .nil := by
  cases g with
  | string => cases v <;> simp [Get.after, readOnce]
  | duration d => cases v <;> simp [Get.after, readOnce]
  | json f st d => cases st <;> simp [Get.after, softened_nil]
  | bson => simp [Get.after, softened_nil]
  | _ => simp [Get.after]

theorem Get.again {τ : Type} (E : Env) (C : Clock τ) (g : Get) (v : Val) : g.onTree E C (g.after E v) = g.onTree E C v ∧ g.after E (g.after E v) = g.after E v := by
  cases g with
  | string => cases v <;> exact ⟨rfl, rfl⟩
  | duration d => cases v <;> exact ⟨rfl, rfl⟩
  | json f st d =>
    cases st with
    | noEscape =>
      refine ⟨?_, softened_again E false v⟩
      simp only [Get.onTree, Get.after, Json.value2Json, Json.value2FormatJson, toJson_softened, format_softened]
    | _ => exact ⟨rfl, rfl⟩
  | bson =>
    refine ⟨?_, softened_again E true v⟩
    have : Bson.toBson E (softened E true v) [] = Bson.toBson E v [] := by
      by_cases hn : v = .nil
      · subst hn; rfl
      · have e : ∀ w : Val, w ≠ .nil → Bson.toBson E w [] = Bson.writeValue E w [] := by
          intro w hw; cases w <;> first | exact absurd rfl hw | rfl
        rw [e v hn, e _ (fun h => hn (softened_nil.1 h)), writeValue_softened]
    simp only [Get.onTree, Get.after, this]
  | _ => exact ⟨rfl, rfl⟩

/-! ## Lookups -/

theorem indexByName_alike {α : Type} (E : Env) (ku : Bool) (kvs : List (Bytes × α)) (k : Bytes) {kvs' : List (Bytes × α)}
    (hk : kvs'.map Prod.fst = (indexByName E ku kvs k).2.2.map Prod.fst) :
    indexByName E (indexByName E ku kvs k).2.1 kvs' k = ((indexByName E ku kvs k).1, (indexByName E ku kvs k).2.1, kvs') := by
  obtain ⟨h1, h2, h3⟩ := indexByName_keys E (indexByName E ku kvs k).2.1 hk k
  rw [indexByName_idem] at h1 h2 h3
  rw [← hk] at h3
  have h4 := indexByName_snd E (indexByName E ku kvs k).2.1 kvs' k
  refine Prod.ext h1 (Prod.ext h2 ?_)
  show (indexByName E (indexByName E ku kvs k).2.1 kvs' k).2.2 = kvs'
  have hz : ∀ xs ys : List (Bytes × α), xs.map Prod.fst = ys.map Prod.fst → xs.map Prod.snd = ys.map Prod.snd → xs = ys := by
    intro xs
    induction xs with
    | nil => intro ys h _; cases ys with | nil => rfl | cons y ys => simp at h
    | cons x xs ih =>
      intro ys h h'
      cases ys with
      | nil => simp at h
      | cons y ys =>
        simp only [List.map_cons, List.cons.injEq] at h h'
        rw [ih ys h.2 h'.2, Prod.ext h.1 h'.1]
  exact hz _ _ h3 h4

theorem looked_again (E : Env) (k : Bytes) (v : Val) : looked E k (looked E k v) = looked E k v ∧ namePos E k (looked E k v) = namePos E k v := by
  cases v with
  | obj ku kvs => simp only [looked, namePos, indexByName_idem]; simp
  | _ => exact ⟨rfl, rfl⟩

theorem setKid_keys {i : Nat} {x : Val} (kvs : List (Bytes × Val)) : (kvs.modify i (fun kv => (kv.1, x))).map Prod.fst = kvs.map Prod.fst := by
  refine List.ext_getElem? fun j => ?_
  simp only [List.getElem?_map, List.getElem?_modify]
  by_cases hj : i = j
  · subst hj; simp; cases kvs[i]? <;> rfl
  · simp [hj]

/-- A lookup after another that went to the same place and changed what is there. -/
theorem looked_set (E : Env) (k : Bytes) (v : Val) (i : Nat) (x : Val) : looked E k (Val.setKid (looked E k v) i x) = Val.setKid (looked E k v) i x ∧
    namePos E k (Val.setKid (looked E k v) i x) = namePos E k v := by
  cases v with
  | obj ku kvs =>
    simp only [looked, Val.setKid, namePos]
    rw [indexByName_alike E ku kvs k (setKid_keys _)]
    exact ⟨rfl, rfl⟩
  | arr xs => exact ⟨rfl, by simp [namePos, looked, Val.setKid]⟩
  | _ => exact ⟨rfl, rfl⟩

theorem kids_looked (E : Env) (k : Bytes) (v : Val) : Val.kids (looked E k v) = Val.kids v := by
  cases v with
  | obj ku kvs => exact indexByName_snd E ku kvs k
  | _ => rfl

theorem kids_setKid {v : Val} {i : Nat} {w : Val} (h : (Val.kids v)[i]? = some w) (x : Val) : (Val.kids (Val.setKid v i x))[i]? = some x := by
  cases v with
  | obj ku kvs =>
    simp only [Val.kids, List.getElem?_map, Option.map_eq_some_iff] at h
    obtain ⟨kv, h1, h2⟩ := h
    simp [Val.kids, Val.setKid, List.getElem?_map, h1]
  | arr xs =>
    simp only [Val.kids] at h
    simp only [Val.kids, Val.setKid, List.getElem?_set, if_true, if_pos (List.getElem?_eq_some_iff.1 h).1]
  | _ => simp [Val.kids] at h

theorem setKid_setKid (v : Val) (i : Nat) (x y : Val) : Val.setKid (Val.setKid v i x) i y = Val.setKid v i y := by
  cases v with
  | obj ku kvs =>
    simp only [Val.setKid, Val.obj.injEq, true_and]
    refine List.ext_getElem? fun j => ?_
    simp only [List.getElem?_modify]
    by_cases hj : i = j
    · subst hj; cases kvs[i]? <;> simp
    · simp [hj]
  | arr xs => simp [Val.setKid]
  | _ => rfl

theorem setKid_nil {v : Val} {i : Nat} {x : Val} : Val.setKid v i x = .nil ↔ v = .nil := by cases v <;> simp [Val.setKid]

theorem looked_nil {E : Env} {k : Bytes} {v : Val} : looked E k v = .nil ↔ v = .nil := by cases v <;> simp [looked]

theorem Get.behind_nil {τ : Type} {E : Env} {C : Clock τ} {d : Ans τ} {g : Get} : ∀ {path : List Bytes} {v : Val}, (g.behind E C d path v).2 = .nil ↔ v = .nil
  | [], v => Get.after_nil
  | k :: path, v => by
    simp only [Get.behind]
    split
    · exact looked_nil
    · split
      · exact looked_nil
      · exact looked_nil
      · exact setKid_nil.trans looked_nil

theorem Get.behind_again {τ : Type} (E : Env) (C : Clock τ) (d : Ans τ) (g : Get) : ∀ (path : List Bytes) (v : Val),
    g.behind E C d path (g.behind E C d path v).2 = g.behind E C d path v
  | [], v => Prod.ext (Get.again E C g v).1 (Get.again E C g v).2
  | k :: path, v => by
    cases hp : namePos E k v with
    | none =>
      have e : g.behind E C d (k :: path) v = (.ok d, looked E k v) := by simp only [Get.behind, hp]
      rw [e]
      simp only [Get.behind, (looked_again E k v).1, (looked_again E k v).2, hp]
    | some i =>
      by_cases hw : ∃ w, (Val.kids v)[i]? = some w ∧ w ≠ .nil
      · obtain ⟨w, hw, hn⟩ := hw
        have step : ∀ (u w : Val), namePos E k u = some i → (Val.kids u)[i]? = some w → w ≠ .nil →
            g.behind E C d (k :: path) u = ((g.behind E C d path w).1, Val.setKid (looked E k u) i (g.behind E C d path w).2) := by
          intro u w hp hw hn
          simp only [Get.behind, hp, hw]
        have ih := Get.behind_again E C d g path w
        rw [step v w hp hw hn]
        dsimp only
        obtain ⟨h1, h2⟩ := looked_set E k v i (g.behind E C d path w).2
        rw [step _ (g.behind E C d path w).2 (by rw [h2, hp]) (kids_setKid (by rw [kids_looked]; exact hw) _) (fun e => hn (Get.behind_nil.1 e)), h1, ih, setKid_setKid]
      · have e : ∀ u, namePos E k u = some i → (Val.kids u)[i]? = (Val.kids v)[i]? → g.behind E C d (k :: path) u = (.ok d, looked E k u) := by
          intro u hp hu
          simp only [Get.behind, hp, hu]
          cases hv : (Val.kids v)[i]? with
          | none => rfl
          | some w =>
            cases w <;> first | rfl | exact absurd ⟨_, hv, by simp⟩ hw
        rw [e v hp rfl, e _ (by rw [(looked_again E k v).2, hp]) (by rw [kids_looked]), (looked_again E k v).1]

theorem Ask.again {τ : Type} (E : Env) (C : Clock τ) (a : Ask τ) (v : Val) : a.onTree E C (a.onTree E C v).2 = a.onTree E C v := by
  cases a with
  | here g => exact Prod.ext (Get.again E C g v).1 (Get.again E C g v).2
  | path ps d g => exact Get.behind_again E C d g ps v
  | index i d g =>
    by_cases hw : ∃ w, kidAt v i = some w ∧ w ≠ .nil
    · obtain ⟨w, hw, hn⟩ := hw
      have step : ∀ (u w : Val), kidAt u i = some w → w ≠ .nil → (Ask.index i d g).onTree E C u = (g.onTree E C w, Val.setKid u i.toNat (g.after E w)) := by
        intro u w hw hn
        simp only [Ask.onTree, hw]
      rw [step v w hw hn]
      have hk : kidAt (Val.setKid v i.toNat (g.after E w)) i = some (g.after E w) := by
        unfold kidAt at hw ⊢
        split at hw
        · rename_i h0; rw [if_pos h0]; exact kids_setKid hw _
        · cases hw
      rw [step _ _ hk (fun e => hn (Get.after_nil.1 e)), setKid_setKid, (Get.again E C g w).1, (Get.again E C g w).2]
    · have e : (Ask.index i d g).onTree E C v = (.ok d, v) := by
        simp only [Ask.onTree]
        cases hv : kidAt v i with
        | none => rfl
        | some w => cases w <;> first | rfl | exact absurd ⟨_, hv, by simp⟩ hw
      rw [e, e]
  | keyName i => rfl
  | item i =>
    cases v with
    | obj ku kvs =>
      by_cases hr : inRange i kvs.length = true
      · have hl : (unescKeys E ku kvs).length = kvs.length := by cases ku <;> simp [unescKeys]
        simp only [Ask.onTree, hr, if_true, hl, unescKeys_true]
        cases ku <;> simp [contents, members, unescKeys]
      · simp only [Ask.onTree, if_neg hr]
    | _ => rfl

theorem sub_subst : ∀ {π : List Nat} {v w : Val} (x : Val), Val.sub v π = some w → Val.sub (Val.subst v π x) π = some x
  | [], v, w, x, _ => rfl
  | i :: π, v, w, x, h => by
    simp only [Val.sub, Option.bind_eq_some_iff] at h
    obtain ⟨y, h1, h2⟩ := h
    simp only [Val.subst, h1, Val.sub, kids_setKid h1, Option.bind_some]
    exact sub_subst x h2

theorem walk_put {T : Trees} {i : Nat} {π : List Nat} {v x : Val} (h : T.walk i π = .ok v) (hx : x ≠ .nil) : (T.put i (Val.subst (T i) π x)).walk i π = .ok x := by
  unfold Trees.walk
  rw [trees_put_same, sub_subst x (walk_sub h)]
  cases x <;> first | exact absurd rfl hx | rfl

theorem walk_ne_nil {T : Trees} {i : Nat} {π : List Nat} {v : Val} (h : T.walk i π = .ok v) : v ≠ .nil := by
  rintro rfl
  unfold Trees.walk at h
  rw [walk_sub (T := T) (i := i) (π := π) (v := .nil) h] at h
  cases h

theorem Ask.onTree_nil {τ : Type} {E : Env} {C : Clock τ} {a : Ask τ} {v : Val} : (a.onTree E C v).2 = .nil ↔ v = .nil := by
  cases a with
  | here g => exact Get.after_nil
  | path ps d g => exact Get.behind_nil
  | index i d g =>
    simp only [Ask.onTree]
    split
    · rfl
    · rfl
    · exact setKid_nil
  | keyName i => rfl
  | item i =>
    cases v with
    | obj ku kvs => simp only [Ask.onTree]; split <;> simp
    | _ => simp [Ask.onTree]

/-! ## C123 -/

/-- **C123**: a question that was answered is answered the same when it is asked again, in any state, and asking again changes no value. -/
theorem C123_twice {τ : Type} {s s1 : St} {T : Trees} {L : Nat → Option Live} (hT : Holds s T) (S : Sound s L) (E : Env) (C : Clock τ) (i : Nat) (π : List Nat) (a : Ask τ)
    {o : List (Ans τ)} (h : (OCmd.ask i π a).exec E C s = .ok (o, s1)) :
    ∃ s2 T1, (OCmd.ask i π a).exec E C s1 = .ok (o, s2) ∧ Holds s1 T1 ∧ Holds s2 T1 := by
  obtain ⟨T1, ⟨v, x, hv, hx, rfl, rfl⟩, hT1, L1, S1⟩ := hT.oexec S E C _ h
  have hw := walk_put hv (fun e => walk_ne_nil hv (Ask.onTree_nil (E := E) (C := C) (a := a).1 e))
  have hq := C118_question hT1 S1 E C i π a
  rw [hw] at hq
  simp only [Res.bind, Ask.again, hx] at hq
  generalize hr : (OCmd.ask i π a).exec E C s1 = r at hq
  match r with
  | .ok (o2, s2) =>
    simp only [Res.ok.injEq] at hq
    subst hq
    obtain ⟨T2, ⟨v2, x2, hv2, hx2, ho, rfl⟩, hT2, -⟩ := hT1.oexec S1 E C _ hr
    rw [hw] at hv2
    cases hv2
    refine ⟨s2, _, rfl, hT1, ?_⟩
    rw [Ask.again, subst_self (walk_sub hw), trees_put_self] at hT2
    exact hT2
  | .err _ => cases hq
  | .panic => cases hq
  | .loop => cases hq

/-- C123 for `x.String(); x.String()` and so on in programs: after any program that ran through, the same question twice prints the same twice.
Missing: states that only the statements left out of programs reach (C115, C118). -/
theorem C123_program_partial {τ : Type} (E : Env) (C : Clock τ) (grow : Nat → Nat) (prog : List (OCmd τ)) {o : List (Ans τ)} {s s1 : St} (h : oexecAll E C (St.init grow) prog = .ok (o, s))
    (i : Nat) (π : List Nat) (a : Ask τ) {o1 : List (Ans τ)} (h1 : (OCmd.ask i π a).exec E C s = .ok (o1, s1)) : ∃ s2, (OCmd.ask i π a).exec E C s1 = .ok (o1, s2) := by
  have key : ∀ (cs : List (OCmd τ)) {s0 : St} {o : List (Ans τ)} {L : Nat → Option Live} {T : Trees}, Holds s0 T → Sound s0 L → oexecAll E C s0 cs = .ok (o, s) →
      ∃ T' L', Holds s T' ∧ Sound s L' := by
    intro cs
    induction cs with
    | nil => intro s0 o L T hT S e; cases e; exact ⟨T, L, hT, S⟩
    | cons c cs ih =>
      intro s0 o L T hT S e
      rw [oexecAll] at e
      obtain ⟨⟨o1, s1⟩, e1, e2⟩ := Res.bind_eq_ok.1 e
      obtain ⟨⟨o2, s2⟩, e3, e4⟩ := Res.bind_eq_ok.1 e2
      cases e4
      obtain ⟨T1, -, hT1, L1, S1⟩ := hT.oexec S E C c e1
      exact ih hT1 S1 e3
  obtain ⟨T, L, hT, S⟩ := key prog (Holds.init grow) (Sound.init grow) h
  obtain ⟨s2, -, e, -⟩ := C123_twice hT S E C i π a h1
  exact ⟨s2, e⟩

/-- A JSON value with escapes in a name: `{"a\n":"\n"}`, its members found by name twice. -/
example : prints [.run (.newJson 0 [123, 34, 97, 92, 110, 34, 58, 34, 92, 110, 34, 125] false none (fun _ => [])), .ask 0 [] (.path [[97, 10]] (.num 0) .string),
    .ask 0 [] (.path [[97, 10]] (.num 0) .string)] = .ok [.text [10], .text [10]] := by decide +kernel

/-! ## C124 -/

mutual
/-- Undoing the rest of the escapes gives the same in the end. -/
theorem Softer.softened {E : Env} : ∀ {v w : Val}, Softer E v w → Heap.softened E true w = Heap.softened E true v
  | .raw s, w, h => by rcases h with rfl | rfl <;> rfl
  | .obj ku kvs, w, h => by
    obtain ⟨kvs', h1, h2⟩ := h
    have ih := SofterM.softened h1
    rcases h2 with rfl | rfl
    · simp only [Heap.softened, Bool.true_or, if_true, ih]
    · simp only [Heap.softened, Bool.true_or, if_true, unescKeys_true]
      congr 1
      cases ku
      · simp only [unescKeys, Bool.false_eq_true, if_false, softenedM_eq, List.map_map] at ih ⊢
        have := congrArg (List.map (fun kv : Bytes × Val => (E.unesc kv.1, kv.2))) ih
        simpa [List.map_map, Function.comp_def] using this
      · simpa [unescKeys] using ih
  | .arr xs, w, h => by
    obtain ⟨xs', h1, rfl⟩ := h
    have ih := SofterL.softened h1
    simp only [Heap.softened, ih]
  | .nil, w, h | .str _, w, h | .int _ _, w, h | .float _, w, h | .double _, w, h | .dateTime _, w, h | .bin _ _, w, h | .exbin _ _, w, h | .null, w, h | .tru, w, h | .fls, w, h
  | .nan, w, h | .inf, w, h => by rw [show w = _ from h]
theorem SofterM.softened {E : Env} : ∀ {kvs kvs' : List (Bytes × Val)}, SofterM E kvs kvs' → softenedM E true kvs' = softenedM E true kvs
  | [], _, h => by rw [show _ = [] from h]
  | (k, v) :: kvs, _, h => by
    obtain ⟨w, ws, rfl, h1, h2⟩ := h
    simp only [softenedM, Softer.softened h1, SofterM.softened h2]
theorem SofterL.softened {E : Env} : ∀ {xs xs' : List Val}, SofterL E xs xs' → softenedL E true xs' = softenedL E true xs
  | [], _, h => by rw [show _ = [] from h]
  | v :: xs, _, h => by
    obtain ⟨w, ws, rfl, h1, h2⟩ := h
    simp only [softenedL, Softer.softened h1, SofterL.softened h2]
end

theorem softened_set (E : Env) {v : Val} {i : Nat} {x y : Val} (h : (Val.kids v)[i]? = some x) (e : softened E true y = softened E true x) :
    softened E true (Val.setKid v i y) = softened E true v := by
  have key : ∀ kvs : List (Bytes × Val), (kvs.map Prod.snd)[i]? = some x → softenedM E true (kvs.modify i (fun kv => (kv.1, y))) = softenedM E true kvs := by
    intro kvs h
    rw [softenedM_eq, softenedM_eq]
    refine List.ext_getElem? fun j => ?_
    simp only [List.getElem?_map, List.getElem?_modify]
    by_cases hj : i = j
    · subst hj
      simp only [List.getElem?_map, Option.map_eq_some_iff] at h
      obtain ⟨kv, h1, rfl⟩ := h
      simp [h1, e]
    · simp [hj]
  cases v with
  | obj ku kvs => simp only [Val.setKid, softened, Bool.true_or, if_true, key kvs h]
  | arr xs =>
    simp only [Val.setKid, softened, softenedL_eq, Val.arr.injEq]
    refine List.ext_getElem? fun j => ?_
    simp only [List.getElem?_map, List.getElem?_set]
    by_cases hj : i = j
    · subst hj
      simp only [Val.kids] at h
      have := (List.getElem?_eq_some_iff.1 h).1
      rw [h]
      simp [e, this]
    · simp [hj]
  | _ => rfl

theorem softened_looked (E : Env) (k : Bytes) (v : Val) : softened E true (looked E k v) = softened E true v := by
  cases v with
  | obj ku kvs =>
    simp only [looked]
    have h : (indexByName E ku kvs k).2 = (ku, kvs) ∨ (indexByName E ku kvs k).2 = (true, unescKeys E ku kvs) := by
      unfold indexByName
      split
      · split
        · exact Or.inl rfl
        · exact Or.inr rfl
      · exact Or.inr rfl
    refine Softer.softened ⟨kvs, SofterM.refl E kvs, ?_⟩
    rcases h with h | h <;> rw [h]
    · exact Or.inl rfl
    · exact Or.inr rfl
  | _ => rfl

mutual
theorem softer_soft (E : Env) (full : Bool) : ∀ v, Softer E v (softened E full v)
  | .obj ku kvs => by
    simp only [softened]
    split
    · exact ⟨_, softerM_soft E full kvs, Or.inr rfl⟩
    · exact Softer.refl E _
  | .arr xs => ⟨_, softerL_soft E full xs, rfl⟩
  | .raw s => by cases full; exact Or.inl rfl; exact Or.inr rfl
  | .nil | .str _ | .int _ _ | .float _ | .double _ | .dateTime _ | .bin _ _ | .exbin _ _ | .null | .tru | .fls | .nan | .inf => rfl
theorem softerM_soft (E : Env) (full : Bool) : ∀ kvs, SofterM E kvs (softenedM E full kvs)
  | [] => rfl
  | (_, v) :: kvs => ⟨_, _, rfl, softer_soft E full v, softerM_soft E full kvs⟩
theorem softerL_soft (E : Env) (full : Bool) : ∀ xs, SofterL E xs (softenedL E full xs)
  | [] => rfl
  | v :: xs => ⟨_, _, rfl, softer_soft E full v, softerL_soft E full xs⟩
end

theorem Get.softened_after (E : Env) (g : Get) (v : Val) : Heap.softened E true (g.after E v) = Heap.softened E true v := by
  cases g with
  | string => cases v <;> rfl
  | duration d => cases v <;> rfl
  | json f st d =>
    cases st with
    | noEscape => exact (softer_soft E false v).softened
    | _ => rfl
  | bson => exact softened_again E true v
  | _ => rfl

theorem Get.softened_behind {τ : Type} (E : Env) (C : Clock τ) (d : Ans τ) (g : Get) : ∀ (path : List Bytes) (v : Val),
    Heap.softened E true (g.behind E C d path v).2 = Heap.softened E true v
  | [], v => Get.softened_after E g v
  | k :: path, v => by
    simp only [Get.behind]
    split
    · exact softened_looked E k v
    · split
      · exact softened_looked E k v
      · exact softened_looked E k v
      · rename_i w _ hw
        exact (softened_set E (by rw [kids_looked]; exact hw) (Get.softened_behind E C d g path w)).trans (softened_looked E k v)

theorem Ask.softened {τ : Type} (E : Env) (C : Clock τ) (a : Ask τ) (v : Val) : Heap.softened E true (a.onTree E C v).2 = Heap.softened E true v := by
  cases a with
  | here g => exact Get.softened_after E g v
  | path ps d g => exact Get.softened_behind E C d g ps v
  | index i d g =>
    simp only [Ask.onTree]
    split
    · rfl
    · rfl
    · rename_i w _ hw
      refine softened_set E ?_ (Get.softened_after E g w)
      unfold kidAt at hw
      split at hw
      · exact hw
      · cases hw
  | keyName i => rfl
  | item i =>
    cases v with
    | obj ku kvs =>
      simp only [Ask.onTree]
      split
      · exact Softer.softened ⟨kvs, SofterM.refl E kvs, Or.inr rfl⟩
      · rfl
    | _ => rfl

/-- Getters whose answer does not show the escapes that are pending. -/
def Get.firm : Get → Bool
  | .count | .binary | .binLen | .binExtType | .duration _ | .bson => true
  | _ => false

theorem Get.firm_softened {τ : Type} (E : Env) (C : Clock τ) (g : Get) (hg : g.firm = true) (v : Val) : g.onTree E C (Heap.softened E true v) = g.onTree E C v := by
  cases g with
  | bson => exact (Get.again E C .bson v).1
  | duration d =>
    cases v with
    | obj ku kvs => simp [Heap.softened, Get.onTree, durationOf]
    | _ => rfl
  | count =>
    cases v with
    | obj ku kvs => cases ku <;> simp [Heap.softened, Get.onTree, Val.kids, softenedM_eq, unescKeys]
    | arr xs => simp [Heap.softened, Get.onTree, Val.kids, softenedL_eq]
    | _ => rfl
  | binary => cases v <;> first | rfl | simp [Heap.softened, Get.onTree, dataOf]
  | binLen => cases v <;> first | rfl | simp [Heap.softened, Get.onTree, dataOf]
  | binExtType => cases v <;> first | rfl | simp [Heap.softened, Get.onTree, extTypeOf]
  | _ => cases hg

/-- The values are the same up to escapes. -/
def UpToEscapes (E : Env) (T T' : Trees) : Prop := ∀ k, softened E true (T' k) = softened E true (T k)

theorem softened_subst (E : Env) : ∀ {π : List Nat} {v w x : Val}, Val.sub v π = some w → softened E true x = softened E true w → softened E true (Val.subst v π x) = softened E true v
  | [], v, w, x, h, e => by cases h; exact e
  | i :: π, v, w, x, h, e => by
    simp only [Val.sub, Option.bind_eq_some_iff] at h
    obtain ⟨y, h1, h2⟩ := h
    simp only [Val.subst, h1]
    exact softened_set E h1 (softened_subst E h2 e)

theorem kids_softened (E : Env) (v : Val) : Val.kids (softened E true v) = (Val.kids v).map (softened E true) := by
  cases v with
  | obj ku kvs => cases ku <;> simp [softened, Val.kids, softenedM_eq, unescKeys, Function.comp_def]
  | arr xs => simp [softened, Val.kids, softenedL_eq]
  | _ => rfl

theorem sub_softened (E : Env) : ∀ (π : List Nat) (v : Val), Val.sub (softened E true v) π = (Val.sub v π).map (softened E true)
  | [], v => rfl
  | i :: π, v => by
    simp only [Val.sub, kids_softened, List.getElem?_map]
    cases (Val.kids v)[i]? with
    | none => rfl
    | some w => simp [sub_softened E π w]

theorem UpToEscapes.walk {E : Env} {T T' : Trees} (h : UpToEscapes E T T') (i : Nat) (π : List Nat) :
    (T'.walk i π).bind (fun v => .ok (softened E true v)) = (T.walk i π).bind (fun v => .ok (softened E true v)) := by
  have key : ∀ T : Trees, (T.walk i π).bind (fun v => .ok (softened E true v)) =
      match Val.sub (softened E true (T i)) π with
      | none | some .nil => .panic
      | some v => .ok v := by
    intro T
    rw [sub_softened]
    unfold Trees.walk
    cases Val.sub (T i) π with
    | none => rfl
    | some w =>
      by_cases hn : w = .nil
      · subst hn; rfl
      · have hs : softened E true w ≠ .nil := fun e => hn (softened_nil.1 e)
        simp only [Option.map_some]
        rfl
  rw [key, key, h i]

theorem UpToEscapes.asked {τ : Type} {E : Env} {C : Clock τ} {T : Trees} {i : Nat} {π : List Nat} {v : Val} (hv : T.walk i π = .ok v) (a : Ask τ) :
    UpToEscapes E T (T.put i (Val.subst (T i) π (a.onTree E C v).2)) := by
  intro k
  by_cases hk : k = i
  · subst hk; rw [trees_put_same]; exact softened_subst E (walk_sub hv) (Ask.softened E C a v)
  · rw [trees_put_ne _ _ hk]

/-- Statements that only ask: getters, writers, lookups and `Equal`. -/
def OCmd.asks {τ : Type} : OCmd τ → Bool
  | .run _ => false
  | _ => true

theorem OCmd.upToEscapes {τ : Type} {E : Env} {C : Clock τ} {T T' : Trees} {c : OCmd τ} (hc : c.asks = true) {o : List (Ans τ)} (h : c.means E C T o T') : UpToEscapes E T T' := by
  cases c with
  | run c => cases hc
  | ask i π a =>
    obtain ⟨v, x, hv, -, -, rfl⟩ := h
    exact UpToEscapes.asked hv a
  | same i π j ρ f =>
    obtain ⟨v, w, hv, hw, h⟩ := h
    split at h
    · obtain ⟨b, -, -, rfl⟩ := h
      obtain ⟨h1, h2⟩ := compared_softer E v w
      intro k
      by_cases hkj : k = j
      · subst hkj; rw [trees_put_same]; exact softened_subst E (walk_sub hw) h2.softened
      · rw [trees_put_ne _ _ hkj]
        by_cases hki : k = i
        · subst hki; rw [trees_put_same]; exact softened_subst E (walk_sub hv) h1.softened
        · rw [trees_put_ne _ _ hki]
    · obtain ⟨-, rfl⟩ := h; exact fun _ => rfl

/-- **C124**, what always holds: questions (getters, writers, lookups, `Equal`), any number of them in any order, change no value but for the escapes that are pending. -/
theorem C124_escapes_only {τ : Type} (E : Env) (C : Clock τ) : ∀ (qs : List (OCmd τ)) {s s1 : St} {T : Trees} {L : Nat → Option Live} {o : List (Ans τ)}, Holds s T → Sound s L →
    (∀ q ∈ qs, q.asks = true) → oexecAll E C s qs = .ok (o, s1) → ∃ T1 L1, Holds s1 T1 ∧ Sound s1 L1 ∧ UpToEscapes E T T1
  | [], s, _, T, L, _, hT, S, _, e => by cases e; exact ⟨T, L, hT, S, fun _ => rfl⟩
  | c :: cs, s, s1, T, L, o, hT, S, hq, e => by
    rw [oexecAll] at e
    obtain ⟨⟨o1, s'⟩, e1, e2⟩ := Res.bind_eq_ok.1 e
    obtain ⟨⟨o2, s''⟩, e3, e4⟩ := Res.bind_eq_ok.1 e2
    cases e4
    obtain ⟨T', hm, hT', L', S'⟩ := hT.oexec S E C c e1
    obtain ⟨T1, L1, h1, h2, h3⟩ := C124_escapes_only E C cs hT' S' (fun q h => hq q (List.mem_cons_of_mem _ h)) e3
    exact ⟨T1, L1, h1, h2, fun k => (h3 k).trans (OCmd.upToEscapes (hq c (List.mem_cons_self ..)) hm k)⟩

/-- **C124**, partly: `Count`, `Binary`, `BinaryLength`, `ExtType`, `Duration` and `ToBson` are answered as if nothing had been asked before, whatever was asked, in any state, of any value. Missing: the
other getters, see the counterexamples. -/
theorem C124_firm_partial {τ : Type} (E : Env) (C : Clock τ) (qs : List (OCmd τ)) {s s1 : St} {T : Trees} {L : Nat → Option Live} {o : List (Ans τ)} (hT : Holds s T) (S : Sound s L)
    (hq : ∀ q ∈ qs, q.asks = true) (h : oexecAll E C s qs = .ok (o, s1)) (i : Nat) (π : List Nat) (g : Get) (hg : g.firm = true) :
    ((OCmd.ask i π (.here g)).exec E C s1).bind (fun r => .ok r.1) = ((OCmd.ask i π (.here g)).exec E C s).bind (fun r => .ok r.1) := by
  obtain ⟨T1, L1, hT1, S1, hu⟩ := C124_escapes_only E C qs hT S hq h
  rw [C118_question hT1 S1, C118_question hT S]
  have hw := hu.walk i π
  have key : ∀ r : Res Val, r.bind (fun v => ((Ask.here g).onTree E C v).1.bind (fun x => .ok [x])) =
      (r.bind (fun v => .ok (softened E true v))).bind (fun v => (g.onTree E C v).bind (fun x => .ok [x])) := by
    intro r
    cases r with
    | ok v => show (g.onTree E C v).bind _ = (g.onTree E C (softened E true v)).bind _; rw [Get.firm_softened E C g hg]
    | _ => rfl
  rw [key, key, hw]

/-! ### Values with nothing to unescape -/

mutual
theorem softened_settled (E : Env) (full : Bool) : ∀ {v : Val}, settled v = true → softened E full v = v
  | .obj ku kvs, h => by
    simp only [settled, Bool.and_eq_true] at h
    obtain ⟨rfl, h⟩ := h
    simp only [softened, softenedM_settled E full h, unescKeys_true, ite_self]
  | .arr xs, h => by
    simp only [settled] at h
    simp only [softened, softenedL_settled E full h]
  | .raw s, h => by cases h
  | .nil, _ | .str _, _ | .int _ _, _ | .float _, _ | .double _, _ | .dateTime _, _ | .bin _ _, _ | .exbin _ _, _ | .null, _ | .tru, _ | .fls, _ | .nan, _ | .inf, _ => rfl
theorem softenedM_settled (E : Env) (full : Bool) : ∀ {kvs : List (Bytes × Val)}, settledM kvs = true → softenedM E full kvs = kvs
  | [], _ => rfl
  | (k, v) :: kvs, h => by
    simp only [settledM, Bool.and_eq_true] at h
    simp only [softenedM, softened_settled E full h.1, softenedM_settled E full h.2]
theorem softenedL_settled (E : Env) (full : Bool) : ∀ {xs : List Val}, settledL xs = true → softenedL E full xs = xs
  | [], _ => rfl
  | v :: xs, h => by
    simp only [settledL, Bool.and_eq_true] at h
    simp only [softenedL, softened_settled E full h.1, softenedL_settled E full h.2]
end

theorem settledM_mem {kvs : List (Bytes × Val)} {kv : Bytes × Val} (h : settledM kvs = true) (hm : kv ∈ kvs) : settled kv.2 = true := by
  induction kvs with
  | nil => cases hm
  | cons x xs ih =>
    simp only [settledM, Bool.and_eq_true] at h
    rcases List.mem_cons.1 hm with rfl | hm
    · exact h.1
    · exact ih h.2 hm

theorem settledL_mem {xs : List Val} {v : Val} (h : settledL xs = true) (hm : v ∈ xs) : settled v = true := by
  induction xs with
  | nil => cases hm
  | cons x xs ih =>
    simp only [settledL, Bool.and_eq_true] at h
    rcases List.mem_cons.1 hm with rfl | hm
    · exact h.1
    · exact ih h.2 hm

theorem settled_kid {v w : Val} {i : Nat} (h : settled v = true) (hw : (Val.kids v)[i]? = some w) : settled w = true := by
  cases v with
  | obj ku kvs =>
    simp only [settled, Bool.and_eq_true] at h
    simp only [Val.kids, List.getElem?_map, Option.map_eq_some_iff] at hw
    obtain ⟨kv, h1, rfl⟩ := hw
    exact settledM_mem h.2 (List.mem_of_getElem? h1)
  | arr xs => exact settledL_mem h (List.mem_of_getElem? hw)
  | _ => simp [Val.kids] at hw

theorem looked_settled (E : Env) (k : Bytes) {v : Val} (h : settled v = true) : looked E k v = v := by
  cases v with
  | obj ku kvs =>
    simp only [settled, Bool.and_eq_true] at h
    obtain ⟨rfl, -⟩ := h
    simp [looked, indexByName, unescKeys_true]
  | _ => rfl

theorem Get.after_settled (E : Env) (g : Get) {v : Val} (h : settled v = true) : g.after E v = v := by
  cases g with
  | string => cases v <;> first | rfl | cases h
  | duration d => cases v <;> first | rfl | cases h
  | json f st d =>
    cases st with
    | noEscape => exact softened_settled E false h
    | _ => rfl
  | bson => exact softened_settled E true h
  | _ => rfl

theorem Get.behind_settled {τ : Type} (E : Env) (C : Clock τ) (d : Ans τ) (g : Get) : ∀ (path : List Bytes) {v : Val}, settled v = true → (g.behind E C d path v).2 = v
  | [], v, h => Get.after_settled E g h
  | k :: path, v, h => by
    simp only [Get.behind]
    split
    · exact looked_settled E k h
    · split
      · exact looked_settled E k h
      · exact looked_settled E k h
      · rename_i w _ hw
        show Val.setKid (looked E k v) _ (g.behind E C d path w).2 = v
        rw [Get.behind_settled E C d g path (settled_kid h hw), looked_settled E k h, setKid_self hw]

/-- **C124**, partly: on a value with nothing to unescape no question changes anything. -/
theorem Ask.settled {τ : Type} (E : Env) (C : Clock τ) (a : Ask τ) {v : Val} (h : Heap.settled v = true) : (a.onTree E C v).2 = v := by
  cases a with
  | here g => exact Get.after_settled E g h
  | path ps d g => exact Get.behind_settled E C d g ps h
  | index i d g =>
    simp only [Ask.onTree]
    split
    · rfl
    · rfl
    · rename_i w _ hw
      show Val.setKid v i.toNat (g.after E w) = v
      unfold kidAt at hw
      split at hw
      · rw [Get.after_settled E g (settled_kid h hw), setKid_self hw]
      · cases hw
  | keyName i => rfl
  | item i =>
    cases v with
    | obj ku kvs =>
      simp only [Heap.settled, Bool.and_eq_true] at h
      obtain ⟨rfl, -⟩ := h
      simp only [Ask.onTree, unescKeys_true, ite_self]
    | _ => rfl

theorem settled_sub : ∀ {π : List Nat} {v w : Val}, settled v = true → Val.sub v π = some w → settled w = true
  | [], v, w, h, e => by cases e; exact h
  | i :: π, v, w, h, e => by
    simp only [Val.sub, Option.bind_eq_some_iff] at e
    obtain ⟨y, h1, h2⟩ := e
    exact settled_sub (settled_kid h h1) h2

/-- C124, partly: while nothing is to be unescaped in any value, questions change no value. -/
theorem C124_settled_partial {τ : Type} (E : Env) (C : Clock τ) : ∀ (qs : List (OCmd τ)) {s s1 : St} {T : Trees} {L : Nat → Option Live} {o : List (Ans τ)}, Holds s T → Sound s L →
    (∀ k, settled (T k) = true) → (∀ q ∈ qs, q.asks = true) → oexecAll E C s qs = .ok (o, s1) → Holds s1 T ∧ ∃ L1, Sound s1 L1
  | [], s, _, T, L, _, hT, S, _, _, e => by cases e; exact ⟨hT, L, S⟩
  | c :: cs, s, s1, T, L, o, hT, S, hs, hq, e => by
    rw [oexecAll] at e
    obtain ⟨⟨o1, s'⟩, e1, e2⟩ := Res.bind_eq_ok.1 e
    obtain ⟨⟨o2, s''⟩, e3, e4⟩ := Res.bind_eq_ok.1 e2
    cases e4
    obtain ⟨T', hm, hT', L', S'⟩ := hT.oexec S E C c e1
    have hTT : T' = T := by
      have hc := hq c (List.mem_cons_self ..)
      cases c with
      | run c => cases hc
      | ask i π a =>
        obtain ⟨v, x, hv, -, -, rfl⟩ := hm
        rw [Ask.settled E C a (settled_sub (hs i) (walk_sub hv)), subst_self (walk_sub hv), trees_put_self]
      | same i π j ρ f =>
        obtain ⟨v, w, hv, hw, h⟩ := hm
        split at h
        · obtain ⟨b, -, -, rfl⟩ := h
          rw [compared_settled E v w (settled_sub (hs i) (walk_sub hv)) (settled_sub (hs j) (walk_sub hw)), subst_self (walk_sub hv), subst_self (walk_sub hw), trees_put_self,
            trees_put_self]
        · exact h.2
    subst hTT
    exact C124_settled_partial E C cs hT' S' hs (fun q h => hq q (List.mem_cons_of_mem _ h)) e3

/-- C124, partly: then every question is answered as if nothing had been asked before. -/
theorem C124_order_partial {τ : Type} (E : Env) (C : Clock τ) (qs : List (OCmd τ)) {s s1 : St} {T : Trees} {L : Nat → Option Live} {o : List (Ans τ)} (hT : Holds s T) (S : Sound s L)
    (hs : ∀ k, settled (T k) = true) (hq : ∀ q ∈ qs, q.asks = true) (h : oexecAll E C s qs = .ok (o, s1)) (i : Nat) (π : List Nat) (a : Ask τ) :
    ((OCmd.ask i π a).exec E C s1).bind (fun r => .ok r.1) = ((OCmd.ask i π a).exec E C s).bind (fun r => .ok r.1) := by
  obtain ⟨hT1, L1, S1⟩ := C124_settled_partial E C qs hT S hs hq h
  rw [C118_question hT1 S1, C118_question hT S]

/-- C124, partly: a question about one variable is answered as if nothing had been asked about the others. -/
theorem C124_others_partial {τ : Type} (E : Env) (C : Clock τ) {s s1 : St} {T : Trees} {L : Nat → Option Live} {o : List (Ans τ)} (hT : Holds s T) (S : Sound s L) (i : Nat) (π : List Nat) (a : Ask τ)
    (h : (OCmd.ask i π a).exec E C s = .ok (o, s1)) (j : Nat) (hij : j ≠ i) (ρ : List Nat) (b : Ask τ) :
    ((OCmd.ask j ρ b).exec E C s1).bind (fun r => .ok r.1) = ((OCmd.ask j ρ b).exec E C s).bind (fun r => .ok r.1) := by
  obtain ⟨T1, ⟨v, x, hv, -, -, rfl⟩, hT1, L1, S1⟩ := hT.oexec S E C _ h
  rw [C118_question hT1 S1, C118_question hT S]
  have : Trees.walk (T.put i (Val.subst (T i) π (a.onTree E C v).2)) j ρ = T.walk j ρ := by unfold Trees.walk; rw [trees_put_ne _ _ hij]
  rw [this]

/-- The JSON text of the next examples: `["\1"]`; `\1` unescapes to `1` in `envEx`. -/
def exText : Bytes := [91, 34, 92, 49, 34, 93]

/-- What is printed for two questions about the element, and for the second alone. -/
def asked2 (a b : Get) : Res (List (Ans Unit)) × Res (List (Ans Unit)) :=
  (prints [.run (.newJson 0 exText false none (fun _ => [])), .ask 0 [0] (.here a), .ask 0 [0] (.here b)],
   prints [.run (.newJson 0 exText false none (fun _ => [])), .ask 0 [0] (.here b)])

/-- C124 is false: `Type` and `Int` of an element, `ToJson` and `ToMsgPack` after `String` are not what they were before. -/
theorem C124_type_counterexample : asked2 .string .type = (.ok [.text [49], .kind .string], .ok [.kind .rawString]) := by decide +kernel
theorem C124_int_counterexample : asked2 .string .int = (.ok [.text [49], .num 1], .ok [.num 0]) := by decide +kernel
theorem C124_json_counterexample : asked2 .string (.json false .onlyAnsi false) = (.ok [.text [49], .text [34, 49, 34]], .ok [.text [34, 92, 49, 34]]) := by decide +kernel
theorem C124_msgpack_counterexample : asked2 .bson .msgPack = (.ok [.text [2, 0, 0, 0, 49, 0], .text [161, 49]], .ok [.text [162, 92, 49]]) := by decide +kernel

/-- ... while `ToBson` is the same. -/
example : asked2 .string .bson = (.ok [.text [49], .text [2, 0, 0, 0, 49, 0]], .ok [.text [2, 0, 0, 0, 49, 0]]) := by decide +kernel

end Dxs.Heap
