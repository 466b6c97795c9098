import Verif.Heap.Merge

/-!
# MergeWith with containers under common names

`mergeObject` (dxvalue.go:414-447) goes into a container it finds under a common name and returns from there (line 428): the members of the
other object that follow are not looked at.
-/

namespace Dxs.Heap

mutual
/-- What `mergeObject` does to the members of `v` when containers are met too (`none`: it is to combine a nil or a shared constant, to merge a
constant into a container, or an object that has members into an array). -/
def mergeD (E : Env) (ask : Option (Bytes → Val → Val → MergeOp)) : Bytes → Bool → List (Bytes × Val) → List (Bytes × Val) → Option (Bool × List (Bytes × Val))
  | _, ku, kvs, [] => some (ku, kvs)
  | path, ku, kvs, (k, b) :: r =>
    let s := indexByName E ku kvs k
    match s.1 with
    | none => mergeD E ask path s.2.1 (s.2.2 ++ [(k, cloneVal b)]) r
    | some i =>
      match s.2.2[i]? with
      | none => none
      | some (_, old) =>
        let path := if ask.isSome then mergePath path k else path
        match (ask.map (fun a => a path old b)).getD .normal with
        | .custom => mergeD E ask path s.2.1 s.2.2 r
        | .replace => if isNilV old then none else mergeD E ask path s.2.1 (s.2.2.modify i (fun kv => (kv.1, cloneVal b))) r
        | .normal =>
          if 2 ≤ old.vt.ord ∧ old.vt.ord ≤ 9 then mergeD E ask path s.2.1 (s.2.2.modify i (fun kv => (kv.1, .arr [cloneVal old, cloneVal b]))) r
          else match old with
          | .obj ku0 kvs0 => (mergeDV E ask path ku0 kvs0 b).map (fun t => (s.2.1, s.2.2.modify i (fun kv => (kv.1, .obj t.1 t.2))))
          | .arr _ => if 1 ≤ b.vt.ord ∧ b.vt.ord ≤ 9 then some (s.2.1, s.2.2) else none
          | _ => none
/-- The same with the value `b` of the other object in place of its members. -/
def mergeDV (E : Env) (ask : Option (Bytes → Val → Val → MergeOp)) : Bytes → Bool → List (Bytes × Val) → Val → Option (Bool × List (Bytes × Val))
  | path, ku, kvs, .obj _ r => mergeD E ask path ku kvs r
  | _, ku, kvs, b => if 1 ≤ b.vt.ord ∧ b.vt.ord ≤ 9 then some (ku, kvs) else none
end

mutual
/-- The number of names in an object, those of the objects within included. -/
def names : Val → Nat
  | .obj _ kvs => namesM kvs
  | _ => 0
/-- The same of its members. -/
def namesM : List (Bytes × Val) → Nat
  | [] => 0
  | (_, v) :: kvs => 1 + names v + namesM kvs
end

/-- No node that is not an object holds members: `Reset` (dxvalue.go:318-353) and `Clear` (192-216) see to that. -/
def Tidy (h : Heap) (G : List Ptr) : Prop := ∀ r ∈ G, (h.mem r).dt ≠ .object → (h.mem r).kvs = []

/-- A value that is neither an object nor a constant has no members to merge. -/
theorem plain_stop (E : Env) (mf : Option MergeFunc) (f : Nat) (a : Ptr) (path : Bytes) {h : Heap} {bp : Option Ptr} {b : Val} {G : List Ptr} (g : Good h bp b G)
    (hn : noNil b = true) (ht : Tidy h G) (hb : 1 ≤ b.vt.ord ∧ b.vt.ord ≤ 9) : ∃ q, bp = some q ∧ mergeObject E mf (f + 1) h path a q 0 = .ok h := by
  cases bp with
  | none =>
    obtain ⟨rfl, -⟩ := rep_none g.rep
    simp [noNil] at hn
  | some q =>
    have hdq := rep_dt g.rep
    have h5 : 5 ≤ q := by
      apply leaf_ge g.inv hdq <;> intro hc <;> rw [hc] at hb <;> simp [VT.ord] at hb
    have hk := ht q (rep_mem g.rep h5) (by rw [hdq]; intro hc; rw [hc] at hb; simp [VT.ord] at hb)
    exact ⟨q, rfl, by simp [mergeObject, hk]⟩

/-- `mergeObject` from member `i` of `w` on. -/
theorem mergeObject_deep (E : Env) {mf : Option MergeFunc} {ask : Option (Bytes → Val → Val → MergeOp)} (hq : Asks mf ask) :
    ∀ (f : Nat) (r : List (Bytes × Val)) (p q : Ptr) (ku' : Bool) (kvs' : List (Bytes × Val)) (G : List Ptr) (i : Nat) (h : Heap) (path : Bytes) (ku : Bool)
      (kvs : List (Bytes × Val)) (F : List Ptr) (ku2 : Bool) (kvs2 : List (Bytes × Val)), noNilM kvs' = true →
      kvs'.drop i = r → namesM r + heightM kvs' + 2 ≤ f → Good h (some p) (.obj ku kvs) F → Good h (some q) (.obj ku' kvs') G → (∀ x ∈ G, x ∉ F) → Copyable h G → Tidy h G →
      mergeD E ask path ku kvs r = some (ku2, kvs2) →
      ∃ h' F', mergeObject E mf f h path p q i = .ok h' ∧ Upd h F h' (some p) (.obj ku2 kvs2) F' := by
  intro f
  induction f with
  | zero => intro r p q ku' kvs' G i h path ku kvs F ku2 kvs2 hnn hr hf; omega
  | succ f ih =>
  intro r
  cases r with
  | nil =>
    intro p q ku' kvs' G i h path ku kvs F ku2 kvs2 hnn hr hf g gw hd hc ht e
    rw [mergeD] at e
    cases e
    obtain ⟨G0, -, -, hdt, -, hm, -⟩ := gw.obj_inv
    have hl := repM_length hm
    have : (h.mem q).kvs[i]? = none := by
      simp only [List.drop_eq_nil_iff] at hr
      simp; omega
    exact ⟨h, F, by simp [mergeObject, this], g.upd_refl⟩
  | cons kb r =>
    obtain ⟨k, b⟩ := kb
    intro p q ku' kvs' G i h path ku kvs F ku2 kvs2 hnn hr hf g gw hd hc ht e
    have hi : kvs'[i]? = some (k, b) := by
      have := congrArg (fun l => l[0]?) hr
      simpa using this
    have hr' : kvs'.drop (i + 1) = r := by rw [← List.drop_drop, hr]; rfl
    have hmem : (k, b) ∈ kvs' := List.mem_of_getElem? hi
    have hhb := heightM_mem hmem
    have hnb := noNilM_mem hmem hnn
    simp only [namesM] at hf
    obtain ⟨eidx, u1, -, -⟩ := objIndex_upd E g k
    obtain ⟨b0, _, hb0, -⟩ := gw.member hi
    rw [mergeObject]
    simp only [hb0]
    have gw1 := gw.frame u1.frame hd
    obtain ⟨h1, eh1⟩ : ∃ h1, h1 = (objIndex E h p k).2 := ⟨_, rfl⟩
    rw [← eh1] at u1 gw1 ⊢
    obtain ⟨bp, Gi, hbp, gb, hGi, -⟩ := gw1.member hi
    have hkeep : ∀ {h2 : Heap} {F2 : List Ptr} {v2 : Val}, Upd h F h2 (some p) v2 F2 → Good h2 (some q) (.obj ku' kvs') G ∧ (∀ x ∈ G, x ∉ F2) ∧ Copyable h2 G ∧ Tidy h2 G := by
      intro h2 F2 v2 u
      refine ⟨gw.frame u.frame hd, ?_, ?_, ?_⟩
      · intro x hx hx2
        rcases u.sub x hx2 with h | h | h
        · exact hd x hx h
        · cases h
        · exact gw.live x hx h
      · intro x hx
        rw [u.frame.mem x (rep_ge gw.rep x hx) (hd x hx) (gw.live x hx)]
        exact hc x hx
      · intro x hx
        rw [u.frame.mem x (rep_ge gw.rep x hx) (hd x hx) (gw.live x hx)]
        exact ht x hx
    obtain ⟨gw1', hd1, hc1, ht1⟩ := hkeep u1
    simp only [mergeD] at e
    simp only [hbp, Option.map_some, Option.getD_some, Option.bind_some]
    rw [show (objIndex E h p k).1 = (indexByName E ku kvs k).1 from eidx]
    have hnone := indexByName_none E ku kvs k
    rcases hix : indexByName E ku kvs k with ⟨j, ku1, kvs1⟩
    rw [hix] at e u1 hnone
    simp only at e u1 hnone
    cases j with
    | none =>
      dsimp only
      obtain ⟨o, h2, Q, ec, M⟩ := clone_ok gb (fun x hx => hc1 x (hGi x hx)) hnb (by omega : height b ≤ f)
      rw [ec]
      simp only [Res.bind_ok]
      have u2 := UpdX.trans u1 (u1.good.upd_frame M.frame)
      obtain ⟨F3, u3⟩ := setKeyValue_obj E u2.good k M.good (fun x hx hF => u1.good.live x hF (M.fresh x hx))
      have u3' := u2.trans u3 |>.absorb (fun x hx => u1.frame.avail x (M.fresh x hx))
      have ep : objPut E ku1 kvs1 k (cloneVal b) = .obj ku1 (kvs1 ++ [(k, cloneVal b)]) := by
        have hk1 : ku1 = true := hnone rfl
        subst hk1
        have h1 : (indexByName E ku kvs k).1 = none := by rw [hix]
        have h2 : indexByName E true kvs1 k = (none, true, kvs1) := by
          have : findKey E kvs1 k = none := by
            have h3 : findKey E (unescKeys E ku kvs) k = none ∧ kvs1 = unescKeys E ku kvs := by
              unfold indexByName at hix
              split at hix
              · split at hix
                · simp at hix
                · simp only [Prod.mk.injEq] at hix; exact ⟨hix.1, hix.2.2.symm⟩
              · simp only [Prod.mk.injEq] at hix; exact ⟨hix.1, hix.2.2.symm⟩
            rw [h3.2]; exact h3.1
          simp [indexByName, unescKeys, this]
        simp [objPut, setKeyValueObj, h2]
      rw [ep] at u3'
      obtain ⟨gw3, hd3, hc3, ht3⟩ := hkeep u3'
      obtain ⟨h', F', e4, u4⟩ := ih r p q ku' kvs' G (i + 1) _ path _ _ F3 ku2 kvs2 hnn hr' (by omega) u3'.good gw3 hd3 hc3 ht3 e
      exact ⟨h', F', e4, u3'.trans u4⟩
    | some j =>
      dsimp only
      cases hj : kvs1[j]? with
      | none => simp only [hj] at e; cases e
      | some kv =>
        obtain ⟨key, old⟩ := kv
        simp only [hj] at e
        obtain ⟨ap, Fj, hap, ga, hFj, hup⟩ := u1.good.member hj
        simp only [hap, Option.bind_some]
        have hp1 : mf.isSome = ask.isSome := by
          unfold Asks at hq
          cases mf <;> cases ask <;> simp at hq ⊢
        have hp2 : ∀ path', (mf.map (fun g => g h1 path' ap bp)).getD .normal = (ask.map (fun a => a path' old b)).getD .normal := by
          intro path'
          unfold Asks at hq
          cases mf <;> cases ask <;> simp at hq ⊢
          exact hq _ _ _ _ _ _ _ _ ga gb
        rw [hp1]
        generalize (if ask.isSome = true then mergePath path k else path) = path' at e ⊢
        rw [hp2]
        cases hop : (ask.map (fun a => a path' old b)).getD .normal with
        | custom =>
          simp only [hop] at e ⊢
          exact (ih r p q ku' kvs' G (i + 1) _ path' _ _ _ ku2 kvs2 hnn hr' (by omega) u1.good gw1' hd1 hc1 ht1 e).imp fun h' ⟨F', e4, u4⟩ => ⟨F', e4, u1.trans u4⟩
        | replace =>
          simp only [hop] at e ⊢
          cases ap with
          | none =>
            obtain ⟨rfl, -⟩ := rep_none ga.rep
            simp [isNilV] at e
          | some a =>
            have hn : isNilV old = false := by
              have := rep_ne_nil ga.rep
              cases old <;> first | rfl | exact absurd rfl this
            simp only [hn, Bool.false_eq_true, if_false] at e ⊢
            have hlt : j < kvs1.length := (List.getElem?_eq_some_iff.1 hj).1
            obtain ⟨x2, F2, u2⟩ : ∃ x2 F2, Upd h1 F (reset h1 a .null) (some p) (.obj ku1 (kvs1.modify j (fun kv => (kv.1, x2)))) F2 := by
              by_cases ha : 5 ≤ a
              · obtain ⟨F2, u2⟩ := hup _ _ _ _ (reset_upd ga ha .null) (by simp)
                exact ⟨_, F2, u2⟩
              · have := u1.good.upd_refl
                rw [← modify_same hj] at this
                rw [show reset h1 a .null = h1 by simp [reset, shared_iff.2 (by omega : a < 5)]]
                exact ⟨old, _, this⟩
            have u2' := u1.trans u2
            obtain ⟨gw2, hd2, hc2, ht2⟩ := hkeep u2'
            have gb2 := gb.frame u2.frame (fun x hx => hd1 x (hGi x hx))
            obtain ⟨o, h3, Q, ec, M⟩ := clone_ok gb2 (fun x hx => hc2 x (hGi x hx)) hnb (by omega : height b ≤ f)
            rw [ec]
            simp only [Res.bind_ok]
            have u3 := u2'.trans (u2'.good.upd_frame M.frame)
            obtain ⟨F4, u4⟩ := obj_modify u3.good M.good (fun x hx hF => u2'.good.live x hF (M.fresh x hx)) (i := j) (by simpa using hlt)
            have u4' := (u3.trans u4).absorb (fun x hx => u2'.frame.avail x (M.fresh x hx))
            rw [modify_modify] at u4'
            obtain ⟨gw4, hd4, hc4, ht4⟩ := hkeep u4'
            obtain ⟨h', F', e5, u5⟩ := ih r p q ku' kvs' G (i + 1) _ path' _ _ F4 ku2 kvs2 hnn hr' (by omega) u4'.good gw4 hd4 hc4 ht4 e
            exact ⟨h', F', e5, u4'.trans u5⟩
        | normal =>
        simp only [hop] at e ⊢
        split at e
        case isFalse =>
          cases ap with
          | none =>
            obtain ⟨rfl, -⟩ := rep_none ga.rep
            cases e
          | some a =>
            have hda := rep_dt ga.rep
            have hdis : ∀ x ∈ Gi, x ∉ Fj := fun x hx hF => hd1 x (hGi x hx) (hFj x hF)
            obtain ⟨f', rfl⟩ : ∃ f', f = f' + 1 := ⟨f - 1, by omega⟩
            have stop : 1 ≤ b.vt.ord ∧ b.vt.ord ≤ 9 → ∃ q', bp = some q' ∧ mergeObject E mf (f' + 1) h1 path' a q' 0 = .ok h1 :=
              plain_stop E mf f' a path' gb hnb (fun x hx => ht1 x (hGi x hx))
            cases old with
            | obj ku0 kvs0 =>
              simp only [hda, Val.vt, true_or, if_true]
              simp only [Option.map_eq_some_iff, Prod.mk.injEq] at e
              obtain ⟨⟨t1, t2⟩, e, rfl, rfl⟩ := e
              by_cases hb : ∃ kub rb, b = .obj kub rb
              · obtain ⟨kub, rb, rfl⟩ := hb
                cases bp with
                | none => exact absurd (rep_none gb.rep).1 (by simp)
                | some q' =>
                  rw [mergeDV] at e
                  simp only [names, height] at hf hhb
                  obtain ⟨h', F', e4, u4⟩ := ih rb a q' kub rb Gi 0 h1 path' ku0 kvs0 Fj t1 t2 (by simpa [noNil] using hnb) rfl (by omega) ga gb hdis
                    (fun x hx => hc1 x (hGi x hx)) (fun x hx => ht1 x (hGi x hx)) e
                  obtain ⟨F5, u5⟩ := hup _ _ _ _ u4 (by simp)
                  exact ⟨h', F5, e4, u1.trans u5⟩
              · have e' : mergeDV E ask path' ku0 kvs0 b = if 1 ≤ b.vt.ord ∧ b.vt.ord ≤ 9 then some (ku0, kvs0) else none := by
                  cases b <;> first | rfl | exact absurd ⟨_, _, rfl⟩ hb
                rw [e'] at e
                split at e
                case isFalse => cases e
                rename_i hpl
                cases e
                obtain ⟨q', rfl, e4⟩ := stop hpl
                exact ⟨h1, F, e4, by rw [modify_same hj]; exact u1⟩
            | arr xs =>
              simp only [hda, Val.vt, or_true, if_true]
              simp only at e
              split at e
              case isFalse => cases e
              rename_i hpl
              cases e
              obtain ⟨q', rfl, e4⟩ := stop hpl
              exact ⟨h1, F, e4, u1⟩
            | _ => cases e
        rename_i hsc
        cases ap with
        | none =>
          obtain ⟨rfl, -⟩ := rep_none ga.rep
          simp [Val.vt, VT.ord] at hsc
        | some a =>
          obtain ⟨l1, l2, l3, l4, l5, l6, l7, l8, l9, l10⟩ := scalar_leaf hsc (rep_ne_nil ga.rep)
          have hda := rep_dt ga.rep
          have a5 : 5 ≤ a := leaf_ge ga.inv hda l6 l7 l8 l9 l10
          have hFa : Fj = [a] := by
            obtain ⟨a', ea, hf, -⟩ := (rep_leaf l1 _ _).1 ga.rep
            cases ea
            rw [hf]; simp [foot]; omega
          have hcp : Copyable h1 Fj := by
            intro x hx
            rw [hFa] at hx
            simp only [List.mem_singleton] at hx
            subst hx
            rw [hda]
            omega
          obtain ⟨o, h2, Q, ec, M⟩ := clone_ok ga hcp l2 (by omega : height old ≤ f)
          simp only [if_false, hda, l4, l5, or_self]
          rw [ec]
          simp only [Res.bind_ok]
          have ga2 := ga.upd_frame M.frame
          have u3 := UpdX.trans ga2 (reset_upd ga2.good a5 .array)
          simp only [blankVal] at u3
          have hQ : ∀ x ∈ Q, x ∉ [a] := by
            intro x hx hm
            simp only [List.mem_singleton] at hm
            subst hm
            exact ga.live x (by rw [hFa]; simp) (M.fresh x hx)
          have hQF : ∀ x ∈ Q, x ∉ Fj := fun x hx hF => ga.live x hF (M.fresh x hx)
          have gQ : Good (reset h2 a .array) (some o) (cloneVal old) Q := M.good.frame (reset_upd ga2.good a5 .array).frame hQF
          obtain ⟨F4, u4⟩ := setIndexValue_arr u3.good 0 gQ hQ
          have u4' := (u3.trans u4).absorb M.fresh
          have e0 : arrPut [] 0 (cloneVal old) = .arr [cloneVal old] := by simp [arrPut, inRange]
          rw [e0] at u4'
          have hdF : ∀ x ∈ Gi, x ∉ Fj := fun x hx hF => hd1 x (hGi x hx) (hFj x hF)
          have gb4 := gb.frame u4'.frame hdF
          obtain ⟨o2, h5, Q2, ec2, M2⟩ := clone_ok gb4 (fun x hx => by
            rw [u4'.frame.mem x (rep_ge gb.rep x hx) (hdF x hx) (gb.live x hx)]; exact hc1 x (hGi x hx)) hnb (by omega : height b ≤ f)
          rw [show (setIndexValue (reset h2 a .array) a 0 (some o)) = setIndexValue (reset h2 a VT.array) a 0 (some o) from rfl, ec2]
          simp only [Res.bind_ok]
          have u5 := u4'.trans (u4'.good.upd_frame M2.frame)
          obtain ⟨F6, u6⟩ := setIndexValue_arr u5.good 1 M2.good (fun x hx hF => u4'.good.live x hF (M2.fresh x hx))
          have u6' := (u5.trans u6).absorb (fun x hx => u4'.frame.avail x (M2.fresh x hx))
          have e1 : arrPut [cloneVal old] 1 (cloneVal b) = .arr [cloneVal old, cloneVal b] := by simp [arrPut, inRange]
          rw [e1] at u6'
          obtain ⟨F7, u7⟩ := hup _ _ _ _ u6' (by simp)
          have u7' := u1.trans u7
          obtain ⟨gw7, hd7, hc7, ht7⟩ := hkeep u7'
          obtain ⟨h', F', e8, u8⟩ := ih r p q ku' kvs' G (i + 1) _ path' _ _ F7 ku2 kvs2 hnn hr' (by omega) u7'.good gw7 hd7 hc7 ht7 e
          exact ⟨h', F', e8, u7'.trans u8⟩

end Dxs.Heap
