import Verif.MsgPack.Wire

/-! # The inputs on which the MessagePack decoder panics

The three missing length checks of msgpackparse.go (lines 75, 293 and 300-317), and the places of an input where the decoder comes to them, as a grammar. -/

namespace Dxs.MsgPack.Spec

/-- The decoder panics on these bytes: the header of a non-empty map and nothing after it; the header of an extension and just as many bytes as its payload has, so that one is missing for the type; an `ext 8` of the timestamp type,
complete, with fewer than twelve bytes of input behind the type; an array with such an item after some complete ones; a map with such an item behind its first name, or behind a later name after some complete pairs. -/
inductive Stuck (E : Env) : Bytes → Prop
  | name (n : Nat) (h : Bytes) : n ≠ 0 → MapHdr n h → Stuck E h
  | ext (h p : Bytes) : ExtHdr p.length h → Stuck E (h ++ p)
  | time (n : UInt8) (p : Bytes) : n.toNat ≤ p.length → p.length < 12 → Stuck E (0xc7 :: n :: 0xff :: p)
  | arr (n : Nat) (h : Bytes) (vs : List Val) (t s : Bytes) : ArrHdr n h → vs.length < n → Wires E true vs t s → Stuck E s → Stuck E (h ++ (t ++ s))
  | first (n : Nat) (h kh k s : Bytes) : n ≠ 0 → MapHdr n h → StrHdr k.length kh → Stuck E s → Stuck E (h ++ (kh ++ (k ++ s)))
  | later (n : Nat) (h kh k : Bytes) (w : Val) (u : Bytes) (kvs : List (Bytes × Val)) (t lh l s : Bytes) : MapHdr n h → kvs.length + 1 < n → StrHdr k.length kh →
      Wire E true w u (t ++ (lh ++ (l ++ s))) → Pairs E true kvs t (lh ++ (l ++ s)) → (StrHdr l.length lh ∨ BinHdr l.length lh) → Stuck E s → Stuck E (h ++ (kh ++ (k ++ (u ++ (t ++ (lh ++ (l ++ s)))))))

end Spec

open Spec
variable {E : Env}

/-! ## From the grammar to the panic -/

theorem wires_stuck {f : Nat} : ∀ {vs : List Val} {t s : Bytes}, Wires E true vs t s → t.length ≤ f → parseValue E (f + 1) s = .panic → ∀ n, vs.length < n → parseElems (parseValue E (f + 1)) n (t ++ s) = .panic
  | _, _, _, .nil r, _, hp, n, hn => by
    obtain ⟨n, rfl⟩ : ∃ g, n = g + 1 := ⟨n - 1, by simp at hn; omega⟩
    simp [parseElems, hp]
  | _, _, _, .cons v vs t u s hv hvs, hle, hp, n, hn => by
    obtain ⟨n, rfl⟩ : ∃ g, n = g + 1 := ⟨n - 1, by simp at hn; omega⟩
    simp only [List.length_append, List.length_cons] at hle hn
    have e := wire_parse hv f (by omega)
    have es := wires_stuck hvs (by omega) hp n (by omega)
    rw [parseElems, List.append_assoc, e]
    simp only [Res.bind_ok, es]
    rfl

theorem pairs_stuck {f : Nat} {lh l s : Bytes} (hl : StrHdr l.length lh ∨ true = true ∧ BinHdr l.length lh) (hp : parseValue E (f + 1) s = .panic) :
    ∀ (kvs : List (Bytes × Val)) (t : Bytes), Pairs E true kvs t (lh ++ (l ++ s)) → t.length ≤ f → ∀ n, kvs.length < n → ∀ acc, parseMembers E (parseValue E (f + 1)) n true acc (t ++ (lh ++ (l ++ s))) = .panic
  | [], t, h, _, n, hn, acc => by
    cases h
    obtain ⟨n, rfl⟩ : ∃ g, n = g + 1 := ⟨n - 1, by simp at hn; omega⟩
    obtain ⟨c, h', rfl, g2⟩ := name_dec hl
    simp only [parseMembers, List.nil_append, List.cons_append, readCode, Res.bind_ok]
    rw [parseStr_of_len (g2 _)]
    simp only [Res.bind_ok, hp]
    rfl
  | (k, v) :: kvs, _, h, hle, n, hn, acc => by
    cases h with
    | cons _ _ _ h t u r hk hv hvs =>
    obtain ⟨n, rfl⟩ : ∃ g, n = g + 1 := ⟨n - 1, by simp at hn; omega⟩
    obtain ⟨c, h', rfl, g2⟩ := name_dec hk
    simp only [List.length_append, List.length_cons] at hle hn
    have e := wire_parse hv f (by omega)
    have es := pairs_stuck hl hp kvs u hvs (by omega) n (by omega) (Assoc.put E.keyMatch acc k v)
    simp only [parseMembers, List.append_assoc, List.cons_append, readCode, Res.bind_ok]
    rw [parseStr_of_len (g2 _)]
    simp only [Res.bind_ok, e, setKeyValueObj_put (Or.inl rfl), es]

theorem stuck_panic : ∀ {b : Bytes}, Stuck E b → ∀ f, b.length ≤ f → parseValue E (f + 1) b = .panic := by
  intro b hb
  induction hb with
  | name n h hn hh =>
    intro f _
    obtain ⟨c, h', rfl, h1, h2, h3, h4⟩ := mapHdr_dec hh
    have := h4 []
    rw [List.append_nil] at this
    rw [pv_map h1 h2 h3]
    simp [parseObject, this, hn]
  | ext h p hh =>
    intro f _
    obtain ⟨c, h', rfl, hs, hl⟩ := extHdr_dec hh
    rw [List.cons_append, pv_ext hs]
    simp only [parseExt, hl, sliceFrom, Res.bind_ok, Nat.lt_irrefl, if_false, if_neg (show ¬ (p.length + 1 ≤ p.length) by omega)]
    rfl
  | time n p h1 h2 =>
    intro f _
    rw [pv_ext (by decide)]
    have x1 : sliceFrom 1 ((0xff : UInt8) :: p) = .ok p := by simp [sliceFrom]
    have xn : sliceFrom (n.toNat + 1) (0xff :: p) = .ok (p.drop n.toNat) := by
      unfold sliceFrom
      rw [if_pos (by simp only [List.length_cons]; omega)]; rfl
    unfold parseExt parseExtLen
    simp only [parseUint8, isTime, parseTime, Res.bind_ok, show ((0xc7 : UInt8) == 0xd4) = false from rfl, show ((0xc7 : UInt8) == 0xd5) = false from rfl, show ((0xc7 : UInt8) == 0xd6) = false from rfl,
      show ((0xc7 : UInt8) == 0xd7) = false from rfl, show ((0xc7 : UInt8) == 0xd8) = false from rfl, show ((0xc7 : UInt8) == 0xc7) = true from rfl, show ((0xff : UInt8) == 0xff) = true from rfl,
      Bool.false_eq_true, if_false, if_true, Bool.or_true, Bool.and_true, Bool.false_or]
    rw [if_neg (by simp only [List.length_cons]; omega), xn]
    simp only [Res.bind_ok, x1]
    clear xn x1 h1
    rcases p with _ | ⟨a, _ | ⟨b, _ | ⟨c, _ | ⟨d, p⟩⟩⟩⟩ <;> try rfl
    have x5 : sliceFrom 5 ((0xff : UInt8) :: a :: b :: c :: d :: p) = .ok p := by simp [sliceFrom]
    rw [x5]
    rcases p with _ | ⟨a, _ | ⟨b, _ | ⟨c, _ | ⟨d, _ | ⟨a', _ | ⟨b', _ | ⟨c', _ | ⟨d', p⟩⟩⟩⟩⟩⟩⟩⟩ <;> first | rfl | (simp at h2; omega)
  | arr n h vs t s hh hn hw hs ih =>
    intro f hle
    obtain ⟨c, h', rfl, h1, h2, h3⟩ := arrHdr_dec hh
    simp at hle
    obtain ⟨f, rfl⟩ : ∃ g, f = g + 1 := ⟨f - 1, by omega⟩
    have e := wires_stuck hw (by omega) (ih f (by omega)) n hn
    rw [List.cons_append, pv_arr h1 h2]
    simp [parseArray, h3, e]
  | first n h kh k s hn hh hk hs ih =>
    intro f hle
    obtain ⟨c, h', rfl, h1, h2, h3, h4⟩ := mapHdr_dec hh
    obtain ⟨c2, k', rfl, g1, g2⟩ := strHdr_dec hk
    simp at hle
    obtain ⟨f, rfl⟩ : ∃ g, f = g + 1 := ⟨f - 1, by omega⟩
    obtain ⟨n, rfl⟩ := Nat.exists_eq_succ_of_ne_zero hn
    have e := ih f (by omega)
    rw [List.cons_append, pv_map h1 h2 h3]
    simp only [parseObject, h4, Res.bind_ok, Nat.succ_ne_zero, if_false, List.cons_append, g1, Bool.not_true, Bool.false_eq_true]
    simp only [parseMembers, readCode, Res.bind_ok]
    rw [parseStr_of_len (g2 _)]
    simp only [Res.bind_ok, e]
    rfl
  | later n h kh k w u kvs t lh l s hh hn hk hw hp hl hs ih =>
    intro f hle
    obtain ⟨c, h', rfl, h1, h2, h3, h4⟩ := mapHdr_dec hh
    obtain ⟨c2, k', rfl, g1, g2⟩ := strHdr_dec hk
    simp at hle
    obtain ⟨f, rfl⟩ : ∃ g, f = g + 1 := ⟨f - 1, by omega⟩
    obtain ⟨n, rfl⟩ := Nat.exists_eq_succ_of_ne_zero (show n ≠ 0 by omega)
    have e := wire_parse hw f (by omega)
    have es := pairs_stuck (hl.elim .inl (fun h => .inr ⟨rfl, h⟩)) (ih f (by omega)) kvs t hp (by omega) n (by omega) (Assoc.put E.keyMatch [] k w)
    rw [List.cons_append, pv_map h1 h2 h3]
    simp only [parseObject, h4, Res.bind_ok, Nat.succ_ne_zero, if_false, List.cons_append, g1, Bool.not_true, Bool.false_eq_true]
    simp only [parseMembers, readCode, Res.bind_ok]
    rw [parseStr_of_len (g2 _)]
    simp only [Res.bind_ok, e, setKeyValueObj_put (Or.inr rfl), es]

/-! ## From the panic to the grammar -/

theorem mapErr_np {α : Type} {e : Err} {x : Res α} (h : x ≠ .panic) : mapErr e x ≠ .panic := by
  cases x <;> simp_all [mapErr]

theorem u8_np (b : Bytes) : parseUint8 b ≠ .panic := by unfold parseUint8; split <;> simp
theorem u16_np (b : Bytes) : parseUint16 b ≠ .panic := by unfold parseUint16; split <;> simp
theorem u32_np (b : Bytes) : parseUint32 b ≠ .panic := by unfold parseUint32; split <;> simp
theorem u64_np (b : Bytes) : parseUint64 b ≠ .panic := by unfold parseUint64; split <;> simp

theorem len_np (c : UInt8) (b : Bytes) : parseLen c b ≠ .panic := by
  unfold parseLen; repeat' split
  all_goals first | exact u8_np b | exact u16_np b | exact u32_np b | simp

theorem extLen_np (c : UInt8) (b : Bytes) : parseExtLen c b ≠ .panic := by
  unfold parseExtLen; repeat' split
  all_goals first | exact u8_np b | exact u16_np b | exact u32_np b | simp

theorem arrLen_np (c : UInt8) (b : Bytes) : parseArrLen c b ≠ .panic := by
  unfold parseArrLen; repeat' split
  all_goals first | exact u16_np b | exact u32_np b | simp

theorem mapLen_np (c : UInt8) (b : Bytes) : parseMapLen c b ≠ .panic := by
  unfold parseMapLen; repeat' split
  all_goals first | exact mapErr_np (u16_np b) | exact mapErr_np (u32_np b) | simp

theorem str_np (c : UInt8) (b : Bytes) : parseStr c b ≠ .panic := by
  unfold parseStr
  intro h
  replace h := Res.bind_eq_panic.1 h
  rcases h with h | ⟨⟨n, t⟩, _, h⟩
  · exact mapErr_np (len_np c b) h
  · dsimp only at h; repeat' split at h
    all_goals cases h

/-- A panic behind a step that does not panic. -/
theorem np_bind {α β : Type} {x : Res α} {g : α → Res β} (hx : x ≠ .panic) (h : (x >>= g) = .panic) : ∃ a, x = .ok a ∧ g a = .panic :=
  (Res.bind_eq_panic.1 h).resolve_left hx

theorem elems_panic {p : Bytes → Res (Val × Bytes)} (hp : ∀ b v r, p b = .ok (v, r) → ∃ t, b = t ++ r ∧ Wire E true v t r) : ∀ (n : Nat) (b : Bytes),
    parseElems p n b = .panic → ∃ vs t s, vs.length < n ∧ b = t ++ s ∧ Wires E true vs t s ∧ p s = .panic
  | 0, _, e => by cases e
  | n + 1, b, e => by
    rw [parseElems] at e
    replace e := Res.bind_eq_panic.1 e
    rcases e with h | ⟨⟨v, b1⟩, h1, h⟩
    · exact ⟨[], [], b, by simp, rfl, .nil _, h⟩
    · replace h := Res.bind_eq_panic.1 h
      rcases h with h | ⟨_, _, h⟩
      · obtain ⟨t, rfl, ht⟩ := hp _ _ _ h1
        obtain ⟨vs, u, s, hl, rfl, hu, hs⟩ := elems_panic hp n b1 h
        exact ⟨v :: vs, t ++ u, s, by simp; omega, by simp, .cons _ _ _ _ _ ht hu, hs⟩
      · cases h

theorem members_panic {p : Bytes → Res (Val × Bytes)} (hp : ∀ b v r, p b = .ok (v, r) → ∃ t, b = t ++ r ∧ Wire E true v t r) : ∀ (n : Nat) (acc : List (Bytes × Val)) (b : Bytes),
    parseMembers E p n true acc b = .panic → ∃ kvs t lh l s, kvs.length < n ∧ b = t ++ (lh ++ (l ++ s)) ∧ Pairs E true kvs t (lh ++ (l ++ s)) ∧ (StrHdr l.length lh ∨ BinHdr l.length lh) ∧ p s = .panic
  | 0, _, _, e => by cases e
  | n + 1, acc, [], e => by simp [parseMembers, readCode] at e
  | n + 1, acc, c :: b, e => by
    rw [parseMembers] at e
    simp only [readCode, Res.bind_ok] at e
    replace e := np_bind (str_np _ _) e
    obtain ⟨⟨k, b2⟩, h2, e⟩ := e
    obtain ⟨h', rfl, hk⟩ := str_inv h2
    replace e := Res.bind_eq_panic.1 e
    rcases e with h | ⟨⟨w, b3⟩, h3, h⟩
    · refine ⟨[], [], c :: h', k, b2, by simp, by simp, .nil _, ?_, h⟩
      exact hk.elim (fun h => .inl h.2) (fun h => .inr h.2)
    · dsimp only at h h3
      rw [setKeyValueObj_put (Or.inl rfl)] at h
      obtain ⟨t, rfl, ht⟩ := hp _ _ _ h3
      obtain ⟨kvs, u, lh, l, s, hl, rfl, hu, hls, hs⟩ := members_panic hp n _ b3 h
      exact ⟨(k, w) :: kvs, (c :: h') ++ (k ++ (t ++ u)), lh, l, s, by simp; omega, by simp, .cons _ _ _ _ _ _ _ (name_inv hk) ht hu, hls, hs⟩

theorem ite_panic {α : Type} {P : Prop} {c : Prop} [Decidable c] {x y : Res α} (h1 : c → x = .panic → P) (h2 : ¬c → y = .panic → P) : (if c then x else y) = .panic → P := by
  split
  · exact h1 ‹_›
  · exact h2 ‹_›

theorem ext_panic {c : UInt8} {b : Bytes} (h : parseExt E c b = .panic) : Stuck E (c :: b) := by
  unfold parseExt at h
  replace h := np_bind (extLen_np _ _) h
  obtain ⟨⟨n, b1⟩, h1, h⟩ := h
  obtain ⟨h', rfl, hh⟩ := extLen_hdr h1
  dsimp only at h
  split at h
  · cases h
  rename_i hlen
  replace h := Res.bind_eq_panic.1 h
  rcases h with h | ⟨tl, h2, h⟩
  · unfold sliceFrom at h
    split at h
    · cases h
    · rename_i h3
      exact .ext (c :: h') b1 (by rw [show b1.length = n by omega]; exact hh)
  · obtain ⟨hle, rfl⟩ := slice_inv h2
    cases b1 with
    | nil => simp at hle
    | cons ty b1 =>
      simp only [List.length_cons, Nat.add_le_add_iff_right] at hle
      dsimp only at h
      split at h
      · rename_i ht
        simp only [isTime, Bool.and_eq_true, beq_iff_eq, Bool.or_eq_true] at ht
        obtain ⟨rfl, ht⟩ := ht
        replace h := Res.bind_eq_panic.1 h
        rcases h with h | ⟨_, _, h⟩
        · have x1 : sliceFrom 1 ((0xff : UInt8) :: b1) = .ok b1 := by simp [sliceFrom]
          unfold parseTime at h
          rw [x1] at h
          have g4 : 4 ≤ b1.length → ∃ n, goUint32 b1 = .ok n := by
            intro h; rcases b1 with _ | ⟨_, _ | ⟨_, _ | ⟨_, _ | ⟨_, _⟩⟩⟩⟩ <;> first | exact ⟨_, rfl⟩ | (simp at h)
          have g8 : ∀ q : Bytes, 8 ≤ q.length → ∃ n, goUint64 q = .ok n := by
            intro q h; rcases q with _ | ⟨_, _ | ⟨_, _ | ⟨_, _ | ⟨_, _ | ⟨_, _ | ⟨_, _ | ⟨_, _ | ⟨_, _⟩⟩⟩⟩⟩⟩⟩⟩ <;> first | exact ⟨_, rfl⟩ | (simp at h)
          rcases ht with (rfl | rfl) | rfl
          · rcases hh with ⟨_, hh⟩ | ⟨_, hh⟩ | ⟨rfl, hh⟩ | ⟨_, hh⟩ | ⟨_, hh⟩ | ⟨_, hh⟩ | ⟨_, hh⟩ | ⟨_, hh⟩ <;> first | (simp at hh; done) | skip
            obtain ⟨m, hm⟩ := g4 hle
            rw [if_pos (by decide)] at h
            simp [hm] at h
          · rcases hh with ⟨_, hh⟩ | ⟨_, hh⟩ | ⟨_, hh⟩ | ⟨rfl, hh⟩ | ⟨_, hh⟩ | ⟨_, hh⟩ | ⟨_, hh⟩ | ⟨_, hh⟩ <;> first | (simp at hh; done) | skip
            obtain ⟨m, hm⟩ := g8 b1 hle
            rw [if_neg (by decide), if_pos (by decide)] at h
            simp [hm] at h
          · rcases hh with ⟨_, hh⟩ | ⟨_, hh⟩ | ⟨_, hh⟩ | ⟨_, hh⟩ | ⟨_, hh⟩ | ⟨hn, hh⟩ | ⟨_, hh⟩ | ⟨_, hh⟩ <;> first | (simp at hh; done) | skip
            cases hh
            have hn8 : (UInt8.ofNat n).toNat = n := by simp; omega
            have hbe : be 1 n = [UInt8.ofNat n] := by simp [be]
            rw [hbe]
            by_cases h12 : b1.length < 12
            · exact .time (UInt8.ofNat n) b1 (by omega) h12
            · exfalso
              rw [if_neg (by decide), if_neg (by decide)] at h
              obtain ⟨m, hm⟩ := g4 (by omega)
              obtain ⟨m2, hm2⟩ := g8 (b1.drop 4) (by rw [List.length_drop]; omega)
              have x5 : sliceFrom 5 ((0xff : UInt8) :: b1) = .ok (b1.drop 4) := by
                unfold sliceFrom; rw [if_pos (by simp only [List.length_cons]; omega)]; rfl
              simp [hm, x5, hm2] at h
        · cases h
      · cases h

theorem panic_step (f : Nat) (ih : ∀ b, parseValue E f b = .panic → Stuck E b) (b : Bytes) : parseValue E (f + 1) b = .panic → Stuck E b := by
  have hp := parse_wire (E := E) f
  cases b with
  | nil => simp [parseValue, readCode]
  | cons c b =>
    unfold parseValue
    simp only [readCode, Res.bind_ok]
    refine ite_panic (fun _ h => (by obtain ⟨a, _, h⟩ := np_bind (str_np _ _) h; cases h)) (fun _ => ?_)
    refine ite_panic ?_ (fun _ => ?_)
    · intro _ h
      unfold parseArray at h
      replace h := np_bind (arrLen_np _ _) h
      obtain ⟨⟨n, b1⟩, h1, h⟩ := h
      obtain ⟨h', rfl, hh⟩ := arrLen_hdr h1
      replace h := Res.bind_eq_panic.1 h
      rcases h with h | ⟨_, _, h⟩
      · obtain ⟨vs, t, s, hl, rfl, hw, hs⟩ := elems_panic hp n b1 h
        exact .arr n (c :: h') vs t s hh hl hw (ih _ hs)
      · cases h
    refine ite_panic ?_ (fun _ => ?_)
    · intro _ h
      unfold parseObject at h
      replace h := np_bind (mapLen_np _ _) h
      obtain ⟨⟨n, b1⟩, h1, h⟩ := h
      obtain ⟨h', rfl, hh⟩ := mapLen_hdr h1
      dsimp only at h
      split at h
      · cases h
      · rename_i hn
        split at h
        · rw [List.append_nil]; exact .name n _ hn hh
        · rename_i k0 b2
          split at h
          · cases h
          · rename_i hk0
            obtain ⟨n, rfl⟩ := Nat.exists_eq_succ_of_ne_zero hn
            rw [Nat.succ_eq_add_one, parseMembers] at h
            simp only [readCode, Res.bind_ok] at h
            replace h := np_bind (str_np _ _) h
            obtain ⟨⟨k, b3⟩, h2, h⟩ := h
            obtain ⟨k', rfl, ⟨_, hk⟩ | ⟨hs, _⟩⟩ := str_inv h2
            · replace h := Res.bind_eq_panic.1 h
              rcases h with h | ⟨⟨w, b4⟩, h3, h⟩
              · exact .first _ (c :: h') (k0 :: k') k b3 hn hh hk (ih _ h)
              · dsimp only at h h3
                rw [setKeyValueObj_put (Or.inr rfl)] at h
                obtain ⟨u, rfl, hu⟩ := hp _ _ _ h3
                obtain ⟨kvs, t, lh, l, s, hl, rfl, ht, hls, hs⟩ := members_panic hp n _ b4 h
                exact .later _ (c :: h') (k0 :: k') k w u kvs t lh l s hh (by omega) hk hu ht hls (ih _ hs)
            · rw [hs] at hk0; simp at hk0
    refine ite_panic (fun _ h => by cases h) (fun _ => ?_)
    refine ite_panic (fun _ h => (by obtain ⟨a, _, h⟩ := np_bind (u8_np _) h; cases h)) (fun _ => ?_)
    refine ite_panic (fun _ h => (by obtain ⟨a, _, h⟩ := np_bind (u8_np _) h; cases h)) (fun _ => ?_)
    refine ite_panic (fun _ h => (by obtain ⟨a, _, h⟩ := np_bind (u16_np _) h; cases h)) (fun _ => ?_)
    refine ite_panic (fun _ h => (by obtain ⟨a, _, h⟩ := np_bind (u16_np _) h; cases h)) (fun _ => ?_)
    refine ite_panic (fun _ h => (by obtain ⟨a, _, h⟩ := np_bind (u32_np _) h; cases h)) (fun _ => ?_)
    refine ite_panic (fun _ h => (by obtain ⟨a, _, h⟩ := np_bind (u32_np _) h; cases h)) (fun _ => ?_)
    refine ite_panic (fun _ h => (by obtain ⟨a, _, h⟩ := np_bind (u64_np _) h; cases h)) (fun _ => ?_)
    refine ite_panic (fun _ h => (by obtain ⟨a, _, h⟩ := np_bind (u32_np _) h; cases h)) (fun _ => ?_)
    refine ite_panic (fun _ h => (by obtain ⟨a, _, h⟩ := np_bind (u64_np _) h; cases h)) (fun _ => ?_)
    refine ite_panic (fun _ h => by cases h) (fun _ => ?_)
    refine ite_panic (fun _ h => by cases h) (fun _ => ?_)
    refine ite_panic (fun _ h => by cases h) (fun _ => ?_)
    refine ite_panic ?_ (fun _ => ?_)
    · intro _ h
      unfold parseBin at h
      replace h := np_bind (len_np _ _) h
      obtain ⟨⟨n, b1⟩, _, h⟩ := h
      dsimp only at h
      split at h <;> cases h
    exact ite_panic (fun _ => ext_panic) (fun _ h => by cases h)

theorem panic_stuck : ∀ (f : Nat) (b : Bytes), parseValue E f b = .panic → Stuck E b
  | 0, _, h => by cases h
  | f + 1, b, h => panic_step f (panic_stuck f) b h

/-- The panics, exactly. -/
theorem panic_iff (E : Env) (b : Bytes) : parse E b = .panic ↔ Stuck E b :=
  ⟨panic_stuck _ _, fun h => stuck_panic h _ (Nat.le_refl _)⟩

end Dxs.MsgPack
