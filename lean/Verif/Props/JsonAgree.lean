import Verif.Props.JsonNibble

/-! # C49, C51, C57: exactly where the hand-written JSON parser deviates -/

namespace Chomp

/-- The character is no `\u` escape, or it is `\u0000`. -/
def JChar.NulOnly : JChar → Prop
  | .uni a b c d => unitOf a b c d = 0
  | _ => True

theorem hexVal_le (c : Char) : (hexVal c).getD 0 ≤ 15 := by
  unfold hexVal
  have h0 : '9'.toNat = 57 := rfl
  have h1 : 'f'.toNat = 102 := rfl
  have h2 : 'F'.toNat = 70 := rfl
  have h3 : '0'.toNat = 48 := rfl
  have h4 : 'a'.toNat = 97 := rfl
  have h5 : 'A'.toNat = 65 := rfl
  split
  · rename_i h
    have : c.toNat ≤ '9'.toNat := h.2
    simp only [Option.getD_some]; omega
  · split
    · rename_i h
      have : c.toNat ≤ 'f'.toNat := h.2
      simp only [Option.getD_some]; omega
    · split
      · rename_i h
        have : c.toNat ≤ 'F'.toNat := h.2
        simp only [Option.getD_some]; omega
      · simp

theorem unitOf_lt_all (a b c d : Char) : unitOf a b c d < 0x10000 := by
  have := hexVal_le a
  have := hexVal_le b
  have := hexVal_le c
  have := hexVal_le d
  unfold unitOf
  omega

theorem ofNat_toNat_valid {u : Nat} (h : u.isValidChar) : (Char.ofNat u).toNat = u := by
  rw [Char.ofNat, dif_pos h]
  rfl

theorem ofNat_nul {u : Nat} (h : u.isValidChar) : Char.ofNat u = '\x00' ↔ u = 0 := by
  constructor
  · intro hc
    have := congrArg Char.toNat hc
    rw [ofNat_toNat_valid h] at this
    exact this
  · rintro rfl; rfl

theorem pair_not_nul {u v : Nat} (hu : IsHigh u) (hv : IsLow v) : Char.ofNat (pairValue u v) ≠ '\x00' := by
  have h1 : (pairValue u v).isValidChar := by
    right
    unfold pairValue IsHigh IsLow at *
    omega
  rw [Ne, ofNat_nul h1]
  unfold pairValue
  omega

theorem decode_same_uni {rev : Bool} {a b c d : Char} {l : List JChar} {t : List Char}
    (hs : ¬ (IsHigh (unitOf a b c d) ∨ IsLow (unitOf a b c d)))
    (h : (decodeJson rev l).map (Char.ofNat (unitOf a b c d) :: ·) = some t)
    (ih : ∀ y, decodeJson rev l = some y → (decodeHand l = y ↔ ∀ c ∈ l, c.NulOnly)) :
    decodeHand (.uni a b c d :: l) = t ↔ ∀ x ∈ JChar.uni a b c d :: l, x.NulOnly := by
  rw [Option.map_eq_some_iff] at h
  obtain ⟨y, hy, rfl⟩ := h
  have hv : (unitOf a b c d).isValidChar := by
    have := unitOf_lt_all a b c d
    unfold IsHigh IsLow at hs
    unfold Nat.isValidChar
    omega
  rw [decodeHand, List.forall_mem_cons, ← ih y hy, JChar.NulOnly]
  constructor
  · intro he
    obtain ⟨h1, h2⟩ := List.cons.inj he
    exact ⟨(ofNat_nul hv).1 h1.symm, h2⟩
  · rintro ⟨h1, h2⟩
    rw [h2, (ofNat_nul hv).2 h1]

/-- Strings are decoded alike exactly if all `\u` escapes are `\u0000`. -/
theorem decode_same_iff (rev : Bool) : ∀ (s : List JChar) (t : List Char), decodeJson rev s = some t →
    (decodeHand s = t ↔ ∀ c ∈ s, c.NulOnly)
  | [], t, h => by rw [decodeJson] at h; cases h; simp [decodeHand]
  | .lit c :: r, t, h => by
    rw [decodeJson, Option.map_eq_some_iff] at h
    obtain ⟨x, hx, rfl⟩ := h
    simp [decodeHand, decode_same_iff rev r x hx, JChar.NulOnly]
  | .esc e :: r, t, h => by
    rw [decodeJson, Option.map_eq_some_iff] at h
    obtain ⟨x, hx, rfl⟩ := h
    simp [decodeHand, decode_same_iff rev r x hx, JChar.NulOnly]
  | [.uni a b c d], t, h => by
    rw [decodeJson] at h
    split at h
    · cases h
    · rename_i hs
      cases h
      have hv : (unitOf a b c d).isValidChar := by
        have := unitOf_lt_all a b c d
        unfold IsHigh IsLow at hs
        unfold Nat.isValidChar
        omega
      simp [decodeHand, JChar.NulOnly, eq_comm (a := '\x00'), ofNat_nul hv]
  | .uni a b c d :: .lit z :: r, t, h => by
    rw [decodeJson] at h
    case x_4 => intro _ _ _ _ e; cases e
    split at h
    · cases h
    · rename_i hs
      exact decode_same_uni hs h (fun y hy => decode_same_iff rev (.lit z :: r) y hy)
  | .uni a b c d :: .esc z :: r, t, h => by
    rw [decodeJson] at h
    case x_4 => intro _ _ _ _ e; cases e
    split at h
    · cases h
    · rename_i hs
      exact decode_same_uni hs h (fun y hy => decode_same_iff rev (.esc z :: r) y hy)
  | .uni a b c d :: .uni a' b' c' d' :: r, t, h => by
    rw [decodeJson] at h
    split at h
    · rename_i hs
      have hn : ¬ (JChar.uni a b c d).NulOnly := by
        intro h0
        rw [JChar.NulOnly] at h0
        rw [h0] at hs
        unfold IsHigh IsLow at hs
        omega
      dsimp only at h
      split at h
      · rename_i h1
        rw [Option.map_eq_some_iff] at h
        obtain ⟨y, _, rfl⟩ := h
        refine ⟨fun he => ?_, fun ha => absurd (ha _ (.head _)) hn⟩
        rw [decodeHand] at he
        exact absurd (List.cons.inj he).1.symm (pair_not_nul h1.1 h1.2)
      · split at h
        · rename_i h1
          rw [Option.map_eq_some_iff] at h
          obtain ⟨y, _, rfl⟩ := h
          refine ⟨fun he => ?_, fun ha => absurd (ha _ (.head _)) hn⟩
          rw [decodeHand] at he
          exact absurd (List.cons.inj he).1.symm (pair_not_nul h1.2.2 h1.2.1)
        · cases h
    · rename_i hs
      exact decode_same_uni hs h (fun y hy => decode_same_iff rev (.uni a' b' c' d' :: r) y hy)

/-- **C49** (exactly). A string that denotes `t` is read as `t` exactly if all of its `\u` escapes are `\u0000`. -/
theorem C49_right_iff (F : F64) (m : Ovf) (s : List JChar) (hs : ∀ c ∈ s, c.Ok) (t : List Char) (ht : decodeJson false s = some t) :
    HandJson F m ('"' :: JChar.textL s ++ ['"']) (.ok (.string t)) ↔ ∀ c ∈ s, c.NulOnly := by
  rw [← decode_same_iff false s t ht]
  have h1 := handJson_of_doc m (F := F) (p := .mk [] (.str s) []) ⟨fun c hc => (List.not_mem_nil hc).elim, hs, fun c hc => (List.not_mem_nil hc).elim⟩ rfl
  have h2 : HandJson F m ('"' :: JChar.textL s ++ ['"']) (.ok (.string (decodeHand s))) := by
    simpa [JPad.text, JDoc.text] using h1
  constructor
  · intro h
    obtain ⟨r, _, hr⟩ := C54_ends F m ('"' :: JChar.textL s ++ ['"'])
    have := (hr _ h).trans (hr _ h2).symm
    cases this
    rfl
  · rintro rfl
    exact h2

example : (∀ c ∈ [JChar.uni '0' '0' '0' '0', .lit 'a'], c.Ok) ∧ decodeJson false [.uni '0' '0' '0' '0', .lit 'a'] = some ['\x00', 'a'] ∧
    ∀ c ∈ [JChar.uni '0' '0' '0' '0', .lit 'a'], c.NulOnly := by
  refine ⟨?_, by decide, ?_⟩
  · intro c hc
    simp only [List.mem_cons, List.not_mem_nil, or_false] at hc
    rcases hc with rfl | rfl
    · show ∀ x ∈ ['0', '0', '0', '0'], (hexVal x).isSome = true
      decide
    · simp [JChar.Ok]
  · intro c hc
    simp only [List.mem_cons, List.not_mem_nil, or_false] at hc
    rcases hc with rfl | rfl
    · show unitOf '0' '0' '0' '0' = 0
      decide
    · trivial

/-! ## C51 -/

/-- No white space in empty arrays and objects, nothing else. -/
def noBlankRules : JRules := ⟨fun _ => True, fun _ => True, fun ws => ws = []⟩

/-- RFC 8259 without white space in empty arrays and objects. -/
def rfcNoBlankRules : JRules := ⟨IsJsonNumber, JChar.Ok, fun ws => ws = []⟩

mutual
theorem JDoc.value_hand_isSome {F : F64} (hF : ∀ l, IsJsonNumber l → (F.parse l).isSome) : ∀ {d : JDoc}, d.Ok rfcNoBlankRules →
    ∃ v, d.value F handDecode = some v
  | .null, _ => ⟨_, rfl⟩
  | .true, _ => ⟨_, rfl⟩
  | .false, _ => ⟨_, rfl⟩
  | .num l, h => by
    obtain ⟨x, hx⟩ := Option.isSome_iff_exists.1 (hF l h)
    exact ⟨.number x, by rw [JDoc.value, hx]; rfl⟩
  | .str s, h => ⟨_, rfl⟩
  | .arr0 _, _ => ⟨_, rfl⟩
  | .arr l, h => by
    obtain ⟨x, hx⟩ := JItems.value_hand_isSome hF (d := l) h
    exact ⟨.array x, by rw [JDoc.value, hx]; rfl⟩
  | .obj0 _, _ => ⟨_, rfl⟩
  | .obj l, h => by
    obtain ⟨x, hx⟩ := JMembers.value_hand_isSome hF (d := l) h
    exact ⟨.object x, by rw [JDoc.value, hx]; rfl⟩
theorem JPad.value_hand_isSome {F : F64} (hF : ∀ l, IsJsonNumber l → (F.parse l).isSome) : ∀ {d : JPad}, d.Ok rfcNoBlankRules →
    ∃ v, d.value F handDecode = some v
  | .mk _ v _, h => JDoc.value_hand_isSome hF (d := v) h.2.1
theorem JItems.value_hand_isSome {F : F64} (hF : ∀ l, IsJsonNumber l → (F.parse l).isSome) : ∀ {d : JItems}, d.Ok rfcNoBlankRules →
    ∃ v, d.value F handDecode = some v
  | .one v, h => by
    obtain ⟨x, hx⟩ := JPad.value_hand_isSome hF (d := v) h
    exact ⟨_, by rw [JItems.value, hx]; rfl⟩
  | .cons v l, h => by
    obtain ⟨x, hx⟩ := JPad.value_hand_isSome hF (d := v) h.1
    obtain ⟨y, hy⟩ := JItems.value_hand_isSome hF (d := l) h.2
    exact ⟨_, by rw [JItems.value, hx, hy]; rfl⟩
theorem JMembers.value_hand_isSome {F : F64} (hF : ∀ l, IsJsonNumber l → (F.parse l).isSome) : ∀ {d : JMembers}, d.Ok rfcNoBlankRules →
    ∃ v, d.value F handDecode = some v
  | .one _ k _ v, h => by
    obtain ⟨x, hx⟩ := JPad.value_hand_isSome hF (d := v) h.2.2.2
    exact ⟨_, by rw [JMembers.value, hx]; rfl⟩
  | .cons _ k _ v l, h => by
    obtain ⟨x, hx⟩ := JPad.value_hand_isSome hF (d := v) h.2.2.2.1
    obtain ⟨y, hy⟩ := JMembers.value_hand_isSome hF (d := l) h.2.2.2.2
    exact ⟨_, by rw [JMembers.value, hx, hy]; rfl⟩
end

theorem rfc_any {p : JPad} (h : p.Ok rfcRules) : p.Ok anyRules :=
  JPad.Ok.mono (R := rfcRules) (S := anyRules) (fun _ h => IsJsonNumber.hand h) (fun _ h => h) (fun _ _ => trivial) h

/-- **C51** (exactly). If `f64` reads all JSON numbers, the hand-written parser accepts a document of RFC 8259 exactly if no empty
array or object in it contains white space: no other white space matters. -/
theorem C51_accepts_iff {F : F64} (hF : ∀ l, IsJsonNumber l → (F.parse l).isSome) (m : Ovf) (p : JPad) (h : p.Ok rfcRules) :
    (∃ v, HandJson F m p.text (.ok v)) ↔ p.Ok noBlankRules := by
  constructor
  · rintro ⟨v, hv⟩
    obtain ⟨q, h1, h2, _⟩ := (C54_language F m p.text v).1 hv
    have := (pad_unique p q (rfc_any h) (hand_any h2) ends_nil ends_nil (by rw [List.append_nil, List.append_nil, h1])).1
    subst this
    exact JPad.Ok.mono (R := handRules) (S := noBlankRules) (fun _ _ => trivial) (fun _ _ => trivial) (fun _ h => h) h2
  · intro hb
    have h1 : p.Ok rfcNoBlankRules :=
      JPad.Ok.and (R := rfcRules) (S := noBlankRules) (T := rfcNoBlankRules) (fun _ h _ => h) (fun _ h _ => h) (fun _ _ h => h) h hb
    obtain ⟨v, hv⟩ := JPad.value_hand_isSome hF h1
    have h2 : p.Ok handRules :=
      JPad.Ok.mono (R := rfcNoBlankRules) (S := handRules) (fun _ h => IsJsonNumber.hand h) (fun _ h => h) (fun _ h => h) h1
    exact ⟨v, handJson_of_doc m h2 hv⟩

example : (JPad.mk [] (.arr0 [' ']) []).Ok rfcRules ∧ ¬ (JPad.mk [] (.arr0 [' ']) []).Ok noBlankRules ∧
    (JPad.mk [' '] (.arr0 []) ['\n']).Ok rfcRules ∧ (JPad.mk [' '] (.arr0 []) ['\n']).Ok noBlankRules := by
  simp [JPad.Ok, JDoc.Ok, rfcRules, noBlankRules, IsWs]

/-! ## C57 -/

/-- All `\u` escapes are `\u0000`, nothing else. -/
def nulOnlyRules : JRules := ⟨fun _ => True, JChar.NulOnly, fun _ => True⟩

mutual
theorem JDoc.same_value_iff {F : F64} (rev : Bool) : ∀ {d : JDoc} {R : JRules} {v v' : JValue F}, d.Ok R → d.value F handDecode = some v →
    d.value F (decodeJson rev) = some v' → (v = v' ↔ d.Ok nulOnlyRules)
  | .null, _, _, _, _, h1, h2 => by cases h1; cases h2; simp [JDoc.Ok]
  | .true, _, _, _, _, h1, h2 => by cases h1; cases h2; simp [JDoc.Ok]
  | .false, _, _, _, _, h1, h2 => by cases h1; cases h2; simp [JDoc.Ok]
  | .num l, _, _, _, _, h1, h2 => by
    rw [JDoc.value] at h1 h2
    rw [h1] at h2
    cases h2
    simp [JDoc.Ok, nulOnlyRules]
  | .str s, _, _, _, _, h1, h2 => by
    rw [JDoc.value] at h1 h2
    cases h1
    rw [Option.map_eq_some_iff] at h2
    obtain ⟨t, ht, rfl⟩ := h2
    rw [JDoc.Ok, JValue.string.injEq, decode_same_iff rev s t ht]
    rfl
  | .arr0 _, _, _, _, h, h1, h2 => by
    cases h1; cases h2
    exact ⟨fun _ => ⟨h.1, trivial⟩, fun _ => rfl⟩
  | .arr l, _, _, _, h, h1, h2 => by
    rw [JDoc.value, Option.map_eq_some_iff] at h1 h2
    obtain ⟨x, hx, rfl⟩ := h1
    obtain ⟨y, hy, rfl⟩ := h2
    rw [JDoc.Ok, JValue.array.injEq]
    exact JItems.same_value_iff rev (d := l) h hx hy
  | .obj0 _, _, _, _, h, h1, h2 => by
    cases h1; cases h2
    exact ⟨fun _ => ⟨h.1, trivial⟩, fun _ => rfl⟩
  | .obj l, _, _, _, h, h1, h2 => by
    rw [JDoc.value, Option.map_eq_some_iff] at h1 h2
    obtain ⟨x, hx, rfl⟩ := h1
    obtain ⟨y, hy, rfl⟩ := h2
    rw [JDoc.Ok, JValue.object.injEq]
    exact JMembers.same_value_iff rev (d := l) h hx hy
theorem JPad.same_value_iff {F : F64} (rev : Bool) : ∀ {d : JPad} {R : JRules} {v v' : JValue F}, d.Ok R → d.value F handDecode = some v →
    d.value F (decodeJson rev) = some v' → (v = v' ↔ d.Ok nulOnlyRules)
  | .mk a v b, _, _, _, h, h1, h2 => by
    rw [JPad.value] at h1 h2
    rw [JDoc.same_value_iff rev (d := v) h.2.1 h1 h2]
    exact ⟨fun hv => ⟨h.1, hv, h.2.2⟩, fun hv => hv.2.1⟩
theorem JItems.same_value_iff {F : F64} (rev : Bool) : ∀ {d : JItems} {R : JRules} {v v' : List (JValue F)}, d.Ok R →
    d.value F handDecode = some v → d.value F (decodeJson rev) = some v' → (v = v' ↔ d.Ok nulOnlyRules)
  | .one v, _, _, _, h, h1, h2 => by
    rw [JItems.value, Option.map_eq_some_iff] at h1 h2
    obtain ⟨x, hx, rfl⟩ := h1
    obtain ⟨y, hy, rfl⟩ := h2
    rw [JItems.Ok, ← JPad.same_value_iff rev (d := v) h hx hy]
    simp
  | .cons v l, _, _, _, h, h1, h2 => by
    rw [JItems.value, Option.bind_eq_some_iff] at h1 h2
    obtain ⟨x, hx, h1⟩ := h1
    obtain ⟨y, hy, h2⟩ := h2
    rw [Option.map_eq_some_iff] at h1 h2
    obtain ⟨xs, hxs, rfl⟩ := h1
    obtain ⟨ys, hys, rfl⟩ := h2
    rw [JItems.Ok, ← JPad.same_value_iff rev (d := v) h.1 hx hy, ← JItems.same_value_iff rev (d := l) h.2 hxs hys]
    simp
theorem JMembers.same_value_iff {F : F64} (rev : Bool) : ∀ {d : JMembers} {R : JRules} {v v' : List (List Char × JValue F)}, d.Ok R →
    d.value F handDecode = some v → d.value F (decodeJson rev) = some v' → (v = v' ↔ d.Ok nulOnlyRules)
  | .one a k b v, _, _, _, h, h1, h2 => by
    rw [JMembers.value, Option.bind_eq_some_iff] at h1 h2
    obtain ⟨s, hs, h1⟩ := h1
    obtain ⟨t, ht, h2⟩ := h2
    rw [Option.map_eq_some_iff] at h1 h2
    obtain ⟨x, hx, rfl⟩ := h1
    obtain ⟨y, hy, rfl⟩ := h2
    cases hs
    have hk := decode_same_iff rev k t ht
    have hv := JPad.same_value_iff rev (d := v) h.2.2.2 hx hy
    rw [JMembers.Ok, ← hv]
    show _ ↔ IsWs a ∧ (∀ c ∈ k, c.NulOnly) ∧ IsWs b ∧ _
    rw [← hk]
    simp [h.1, h.2.2.1]
  | .cons a k b v l, _, _, _, h, h1, h2 => by
    rw [JMembers.value, Option.bind_eq_some_iff] at h1 h2
    obtain ⟨s, hs, h1⟩ := h1
    obtain ⟨t, ht, h2⟩ := h2
    rw [Option.bind_eq_some_iff] at h1 h2
    obtain ⟨x, hx, h1⟩ := h1
    obtain ⟨y, hy, h2⟩ := h2
    rw [Option.map_eq_some_iff] at h1 h2
    obtain ⟨xs, hxs, rfl⟩ := h1
    obtain ⟨ys, hys, rfl⟩ := h2
    cases hs
    have hk := decode_same_iff rev k t ht
    have hv := JPad.same_value_iff rev (d := v) h.2.2.2.1 hx hy
    have hl := JMembers.same_value_iff rev (d := l) h.2.2.2.2 hxs hys
    rw [JMembers.Ok, ← hv, ← hl]
    show _ ↔ IsWs a ∧ (∀ c ∈ k, c.NulOnly) ∧ IsWs b ∧ _
    rw [← hk]
    simp [h.1, h.2.2.1, and_assoc]
end

mutual
theorem JDoc.hand_of_value {F : F64} {dec : List JChar → Option (List Char)} : ∀ {d : JDoc} {v : JValue F}, d.value F dec = some v →
    ∃ v', d.value F handDecode = some v'
  | .null, _, _ => ⟨_, rfl⟩
  | .true, _, _ => ⟨_, rfl⟩
  | .false, _, _ => ⟨_, rfl⟩
  | .num l, _, h => ⟨_, h⟩
  | .str s, _, h => ⟨_, rfl⟩
  | .arr0 _, _, _ => ⟨_, rfl⟩
  | .arr l, _, h => by
    rw [JDoc.value, Option.map_eq_some_iff] at h
    obtain ⟨x, hx, rfl⟩ := h
    obtain ⟨y, hy⟩ := JItems.hand_of_value (d := l) hx
    exact ⟨_, by rw [JDoc.value, hy]; rfl⟩
  | .obj0 _, _, _ => ⟨_, rfl⟩
  | .obj l, _, h => by
    rw [JDoc.value, Option.map_eq_some_iff] at h
    obtain ⟨x, hx, rfl⟩ := h
    obtain ⟨y, hy⟩ := JMembers.hand_of_value (d := l) hx
    exact ⟨_, by rw [JDoc.value, hy]; rfl⟩
theorem JPad.hand_of_value {F : F64} {dec : List JChar → Option (List Char)} : ∀ {d : JPad} {v : JValue F}, d.value F dec = some v →
    ∃ v', d.value F handDecode = some v'
  | .mk _ v _, _, h => JDoc.hand_of_value (d := v) h
theorem JItems.hand_of_value {F : F64} {dec : List JChar → Option (List Char)} : ∀ {d : JItems} {v : List (JValue F)}, d.value F dec = some v →
    ∃ v', d.value F handDecode = some v'
  | .one v, _, h => by
    rw [JItems.value, Option.map_eq_some_iff] at h
    obtain ⟨x, hx, rfl⟩ := h
    obtain ⟨y, hy⟩ := JPad.hand_of_value (d := v) hx
    exact ⟨_, by rw [JItems.value, hy]; rfl⟩
  | .cons v l, _, h => by
    rw [JItems.value, Option.bind_eq_some_iff] at h
    obtain ⟨x, hx, h⟩ := h
    rw [Option.map_eq_some_iff] at h
    obtain ⟨xs, hxs, rfl⟩ := h
    obtain ⟨y, hy⟩ := JPad.hand_of_value (d := v) hx
    obtain ⟨ys, hys⟩ := JItems.hand_of_value (d := l) hxs
    exact ⟨_, by rw [JItems.value, hy, hys]; rfl⟩
theorem JMembers.hand_of_value {F : F64} {dec : List JChar → Option (List Char)} : ∀ {d : JMembers} {v : List (List Char × JValue F)},
    d.value F dec = some v → ∃ v', d.value F handDecode = some v'
  | .one _ k _ v, _, h => by
    rw [JMembers.value, Option.bind_eq_some_iff] at h
    obtain ⟨s, _, h⟩ := h
    rw [Option.map_eq_some_iff] at h
    obtain ⟨x, hx, rfl⟩ := h
    obtain ⟨y, hy⟩ := JPad.hand_of_value (d := v) hx
    exact ⟨_, by rw [JMembers.value, hy]; rfl⟩
  | .cons _ k _ v l, _, h => by
    rw [JMembers.value, Option.bind_eq_some_iff] at h
    obtain ⟨s, _, h⟩ := h
    rw [Option.bind_eq_some_iff] at h
    obtain ⟨x, hx, h⟩ := h
    rw [Option.map_eq_some_iff] at h
    obtain ⟨xs, hxs, rfl⟩ := h
    obtain ⟨y, hy⟩ := JPad.hand_of_value (d := v) hx
    obtain ⟨ys, hys⟩ := JMembers.hand_of_value (d := l) hxs
    exact ⟨_, by rw [JMembers.value, hy, hys]; rfl⟩
end

/-- **C57** (exactly). The texts for which both parsers give a value, the same one, are those of documents of RFC 8259 with ASCII
strings, without white space in empty arrays and objects, whose `\u` escapes are all `\u0000`, and that have a value. -/
theorem C57_agree_iff (F : F64) (m : Ovf) {st : BState} (hst : Generates jsonToks st) (text : List Char) :
    (∃ v, HandJson F m text (.ok v) ∧ GenJson F st text (.ok v)) ↔
      ∃ p : JPad, p.text = text ∧ p.Ok bothRules ∧ p.Ok nulOnlyRules ∧ ∃ v, p.value F (decodeJson true) = some v := by
  constructor
  · rintro ⟨v, hv⟩
    obtain ⟨p, h1, h2, h3, h4⟩ := (C57_both F m hst text v v).1 hv
    exact ⟨p, h1, h2, (JPad.same_value_iff true h2 h3 h4).1 rfl, v, h4⟩
  · rintro ⟨p, h1, h2, h3, v, h4⟩
    obtain ⟨v', h5⟩ : ∃ v', p.value F handDecode = some v' := JPad.hand_of_value h4
    have e := (JPad.same_value_iff true h2 h5 h4).2 h3
    subst e
    exact ⟨_, (C57_both F m hst text _ _).2 ⟨p, h1, h2, h5, h4⟩⟩

end Chomp
