import Verif.Bench.JsonParse
import Verif.Props.Arith

/-! # C48–C51, C54: the hand-written JSON parser

Documents, their texts and their values are defined in `Verif/Bench/JsonSpec.lean` without reference to a parser.
`F` stands for `f64`; `m` tells whether arithmetic overflow panics or wraps around. -/

namespace Chomp

/-! ## C48: surrogate pairs -/

theorem toNat_ofNat_valid {n : Nat} (h : n.isValidChar) : (Char.ofNat n).toNat = n := by
  unfold Char.ofNat
  rw [dif_pos h]
  rfl

/-- **C48.** Two surrogates, in either order, give the code point that they encode; it is a scalar value above U+FFFF. -/
theorem C48_pair (hi lo : Nat) (h1 : IsHigh hi) (h2 : IsLow lo) :
    decodePair hi lo = some (pairValue hi lo) ∧ decodePair lo hi = some (pairValue hi lo) ∧
    0xFFFF < pairValue hi lo ∧ ∃ c, charOfU32 (pairValue hi lo) = some c ∧ c.toNat = pairValue hi lo := by
  obtain ⟨h3, h4⟩ := h1
  obtain ⟨h5, h6⟩ := h2
  have hv : 0xFFFF < pairValue hi lo ∧ pairValue hi lo < 0x110000 := by unfold pairValue; omega
  refine ⟨?_, ?_, hv.1, ?_⟩
  · unfold decodePair
    have e1 : (decide (0xDC00 ≤ hi) && decide (hi ≤ 0xDFFF)) = false := by simp; omega
    have e2 : (decide (0xDC00 ≤ lo) && decide (lo ≤ 0xDFFF)) = true := by simp; omega
    have e3 : (decide (0xD800 ≤ hi) && decide (hi ≤ 0xDBFF)) = true := by simp; omega
    simp only [e1, e2, e3, Bool.false_eq_true, if_false, if_true]
    rw [Option.some.injEq]; unfold pairValue; omega
  · unfold decodePair
    have e2 : (decide (0xDC00 ≤ lo) && decide (lo ≤ 0xDFFF)) = true := by simp; omega
    have e3 : (decide (0xD800 ≤ hi) && decide (hi ≤ 0xDBFF)) = true := by simp; omega
    simp only [e2, e3, if_true]
    rw [Option.some.injEq]; unfold pairValue; omega
  · refine ⟨Char.ofNat (pairValue hi lo), by rw [charOfU32, if_pos (by omega)], ?_⟩
    exact toNat_ofNat_valid (.inr (by omega))

/-- **C48** (panics). Anything else fails an assertion. -/
theorem C48_panics (a b : Nat) : decodePair a b = none ↔ ¬ ((IsHigh a ∧ IsLow b) ∨ (IsLow a ∧ IsHigh b)) := by
  unfold decodePair IsHigh IsLow
  simp only [Bool.and_eq_true, decide_eq_true_eq]
  split
  · split
    · simp; omega
    · simp; omega
  · split
    · split
      · simp; omega
      · simp; omega
    · simp; omega

/-- **C48** (all of them, once). Every character above U+FFFF is the value of exactly one pair. -/
theorem C48_bijective (c : Char) (h : 0xFFFF < c.toNat) :
    ∃ hi lo, (IsHigh hi ∧ IsLow lo ∧ pairValue hi lo = c.toNat) ∧
      ∀ hi' lo', IsHigh hi' → IsLow lo' → pairValue hi' lo' = c.toNat → hi' = hi ∧ lo' = lo := by
  have hc : c.toNat < 0x110000 := by
    rcases c.valid with h | h
    · exact Nat.lt_trans h (by decide)
    · exact h.2
  refine ⟨0xD800 + (c.toNat - 0x10000) / 0x400, 0xDC00 + (c.toNat - 0x10000) % 0x400, ⟨?_, ?_, ?_⟩, ?_⟩
  · unfold IsHigh; omega
  · unfold IsLow; omega
  · unfold pairValue; omega
  · unfold IsHigh IsLow pairValue; intros; omega

example : decodePair 0xD83D 0xDE00 = some 0x1F600 ∧ decodePair 0xDE00 0xD83D = some 0x1F600 ∧
    decodePair 0xD83D 0xD83D = none ∧ decodePair 0x41 0xDE00 = none := by decide

/-! ## The parser -/

/-- `Value::parse_str` on `text` ends with `r`. -/
def HandJson (F : F64) (m : Ovf) (text : List Char) (r : ParseRes (JValue F)) : Prop :=
  r ≠ .oof ∧ ∃ n, jsonParse F m n text = r

theorem HandJson.unique {F : F64} {m : Ovf} {text : List Char} {r r' : ParseRes (JValue F)} (h : HandJson F m text r)
    (h' : HandJson F m text r') : r = r' := by
  obtain ⟨h1, n, h2⟩ := h
  obtain ⟨h3, k, h4⟩ := h'
  have e1 := parseWith_fuel (takeJson_mono F m (Nat.le_max_left n k) _) (by rw [← h2] at h1; exact h1)
  have e2 := parseWith_fuel (takeJson_mono F m (Nat.le_max_right n k) _) (by rw [← h4] at h3; exact h3)
  rw [← h2, ← h4, jsonParse, jsonParse, parseStr, parseStr, ← e1, ← e2]

/-- **C54** (termination). On every text the parser ends with exactly one outcome. -/
theorem C54_ends (F : F64) (m : Ovf) (text : List Char) :
    ∃ r, HandJson F m text r ∧ ∀ r', HandJson F m text r' → r' = r := by
  have h := takeJson_ends F m (text.length + 1) (IW.new text) (by rw [IW.rem_new]; exact Nat.lt_succ_self _)
  refine ⟨_, ⟨?_, _, rfl⟩, fun r' h' => h'.unique ⟨?_, text.length + 1, rfl⟩⟩
  all_goals
    show parseWith (takeJson F m (text.length + 1)) (IW.new text) ≠ .oof
    unfold parseWith
    split
    · split <;> simp
    · simp
    · simp
    · rename_i e; exact absurd e h

theorem handJson_of_doc {F : F64} (m : Ovf) {p : JPad} {v : JValue F} (hok : p.Ok handRules)
    (hv : p.value F handDecode = some v) : HandJson F m p.text (.ok v) := by
  obtain ⟨w', h1, h2⟩ := takeJson_complete F m (p.depth + 1) p v (Nat.lt_succ_self _) hok hv (IW.new p.text) []
    (by rw [IW.rem_new, List.append_nil]) (by intro c hc; cases hc)
  refine ⟨by simp, p.depth + 1, ?_⟩
  rw [jsonParse, parseStr, parseWith, h1]
  simp only
  rw [IW.peek_eq, h2]
  rfl

/-- **C54.** The parser returns `v` on exactly the texts of documents with value `v`, where: numbers are anything that starts with a digit
or a minus sign, goes on with digits, signs, points and `e`s and is an `f64` (`HandNumber`); strings are as in RFC 8259,
but every `\u` escape counts as NUL (`handDecode`, see C49); empty arrays and objects have no white space (see C51). -/
theorem C54_language (F : F64) (m : Ovf) (text : List Char) (v : JValue F) :
    HandJson F m text (.ok v) ↔ ∃ p : JPad, p.text = text ∧ p.Ok handRules ∧ p.value F handDecode = some v := by
  constructor
  · rintro ⟨-, n, h⟩
    rw [jsonParse, parseStr, parseWith] at h
    split at h
    · rename_i a w h1
      obtain ⟨p, ⟨hp, hv⟩, hw⟩ := takeJson_sound F m n _ _ _ h1
      split at h
      · cases h
      · rename_i w' hpk
        cases h
        have : w.rem = [] := by rw [← IW.peek_none, hpk]
        rw [this, List.append_nil, IW.rem_new] at hw
        exact ⟨p, hw.symm, hp, hv⟩
    all_goals cases h
  · rintro ⟨p, rfl, h1, h2⟩
    exact handJson_of_doc m h1 h2

/-- **C54** (other texts). Every other text is rejected, or reaches a `todo!()`. -/
theorem C54_rejects (F : F64) (m : Ovf) (text : List Char)
    (h : ¬ ∃ p : JPad, ∃ v, p.text = text ∧ p.Ok handRules ∧ p.value F handDecode = some v) :
    (∃ e, HandJson F m text (.err e)) ∨ HandJson F m text .panic := by
  obtain ⟨r, hr, -⟩ := C54_ends F m text
  cases r with
  | ok v =>
    obtain ⟨p, hp⟩ := (C54_language F m text v).1 hr
    exact absurd ⟨p, v, hp⟩ h
  | err e => exact .inl ⟨e, hr⟩
  | panic => exact .inr hr
  | oof => exact absurd rfl hr.1

/-- Overflow checks make no difference to which texts are accepted, and to the values. -/
theorem C54_mode (F : F64) (m m' : Ovf) (text : List Char) (v : JValue F) :
    HandJson F m text (.ok v) ↔ HandJson F m' text (.ok v) := by
  rw [C54_language, C54_language]

/-! ## RFC 8259 -/

theorem isDigit_numChar {c : Char} (h : c.isDigit = true) : numChar c = true := by unfold numChar; rw [h]; rfl

/-- The numbers of RFC 8259 are among those that the parser reads. -/
theorem IsJsonNumber.hand {l : List Char} (h : IsJsonNumber l) : HandNumber l := by
  obtain ⟨sign, int, frac, exp, h1, h2, h3, h4⟩ := h
  have hint : ∃ c r, int = c :: r ∧ c.isDigit = true ∧ ∀ x ∈ r, numChar x = true := by
    rcases h2 with rfl | ⟨⟨h5, h6⟩, -⟩
    · exact ⟨'0', [], rfl, by decide, by simp⟩
    · cases int with
      | nil => exact absurd rfl h5
      | cons c r => exact ⟨c, r, rfl, h6 c (by simp), fun x hx => isDigit_numChar (h6 x (by simp [hx]))⟩
  have hfrac : ∀ x ∈ frac, numChar x = true := by
    rcases h3 with rfl | ⟨d, rfl, h5⟩
    · simp
    · intro x hx
      rcases List.mem_cons.1 hx with rfl | hx
      · decide
      · exact isDigit_numChar (h5.2 x hx)
  have hexp : ∀ x ∈ exp, numChar x = true := by
    rcases h4 with rfl | ⟨e, s, d, rfl, h5, h6, h7⟩
    · simp
    · intro x hx
      rcases List.mem_append.1 hx with hx | hx
      · rcases List.mem_cons.1 hx with rfl | hx
        · rcases h5 with rfl | rfl <;> decide
        · rcases h6 with rfl | rfl | rfl
          · cases hx
          · simp at hx; subst hx; decide
          · simp at hx; subst hx; decide
      · exact isDigit_numChar (h7.2 x hx)
  obtain ⟨c, r, rfl, h5, h6⟩ := hint
  rcases h1 with rfl | rfl
  · refine ⟨c, r ++ frac ++ exp, by simp, .inl h5, ?_⟩
    intro x hx
    simp only [List.mem_append] at hx
    rcases hx with (hx | hx) | hx
    · exact h6 x hx
    · exact hfrac x hx
    · exact hexp x hx
  · refine ⟨'-', c :: r ++ frac ++ exp, by simp, .inr rfl, ?_⟩
    intro x hx
    simp only [List.mem_append, List.mem_cons] at hx
    rcases hx with ((rfl | hx) | hx) | hx
    · exact isDigit_numChar h5
    · exact h6 x hx
    · exact hfrac x hx
    · exact hexp x hx

/-- No `\u` escape. -/
def JChar.NoUni : JChar → Prop
  | .uni _ _ _ _ => False
  | _ => True

theorem decodeHand_plain (rev : Bool) : ∀ s : List JChar, (∀ c ∈ s, c.NoUni) → decodeJson rev s = some (decodeHand s)
  | [], _ => rfl
  | .lit c :: r, h => by
    rw [decodeJson, decodeHand_plain rev r (fun x hx => h x (by simp [hx]))]; rfl
  | .esc e :: r, h => by
    rw [decodeJson, decodeHand_plain rev r (fun x hx => h x (by simp [hx]))]; rfl
  | .uni a b c d :: r, h => False.elim (h (.uni a b c d) (by simp))

/-- The documents of RFC 8259 without `\u` escapes and without white space in empty arrays and objects. -/
def plainRules : JRules := ⟨IsJsonNumber, fun c => c.Ok ∧ c.NoUni, fun ws => ws = []⟩

mutual
theorem JDoc.Ok.mono {R S : JRules} (h1 : ∀ l, R.num l → S.num l) (h2 : ∀ c, R.chr c → S.chr c) (h3 : ∀ w, R.empty w → S.empty w) :
    ∀ {d : JDoc}, d.Ok R → d.Ok S
  | .null, _ => trivial
  | .true, _ => trivial
  | .false, _ => trivial
  | .num _, h => h1 _ h
  | .str _, h => fun c hc => h2 c (h c hc)
  | .arr0 _, h => ⟨h.1, h3 _ h.2⟩
  | .arr _, h => JItems.Ok.mono h1 h2 h3 h
  | .obj0 _, h => ⟨h.1, h3 _ h.2⟩
  | .obj _, h => JMembers.Ok.mono h1 h2 h3 h
theorem JPad.Ok.mono {R S : JRules} (h1 : ∀ l, R.num l → S.num l) (h2 : ∀ c, R.chr c → S.chr c) (h3 : ∀ w, R.empty w → S.empty w) :
    ∀ {d : JPad}, d.Ok R → d.Ok S
  | .mk _ _ _, h => ⟨h.1, JDoc.Ok.mono h1 h2 h3 h.2.1, h.2.2⟩
theorem JItems.Ok.mono {R S : JRules} (h1 : ∀ l, R.num l → S.num l) (h2 : ∀ c, R.chr c → S.chr c) (h3 : ∀ w, R.empty w → S.empty w) :
    ∀ {d : JItems}, d.Ok R → d.Ok S
  | .one _, h => JPad.Ok.mono h1 h2 h3 h
  | .cons _ _, h => ⟨JPad.Ok.mono h1 h2 h3 h.1, JItems.Ok.mono h1 h2 h3 h.2⟩
theorem JMembers.Ok.mono {R S : JRules} (h1 : ∀ l, R.num l → S.num l) (h2 : ∀ c, R.chr c → S.chr c) (h3 : ∀ w, R.empty w → S.empty w) :
    ∀ {d : JMembers}, d.Ok R → d.Ok S
  | .one _ _ _ _, h => ⟨h.1, fun c hc => h2 c (h.2.1 c hc), h.2.2.1, JPad.Ok.mono h1 h2 h3 h.2.2.2⟩
  | .cons _ _ _ _ _, h => ⟨h.1, fun c hc => h2 c (h.2.1 c hc), h.2.2.1, JPad.Ok.mono h1 h2 h3 h.2.2.2.1, JMembers.Ok.mono h1 h2 h3 h.2.2.2.2⟩
end

mutual
theorem JDoc.value_plain (F : F64) (rev : Bool) : ∀ {d : JDoc}, d.Ok plainRules → d.value F handDecode = d.value F (decodeJson rev)
  | .null, _ => rfl
  | .true, _ => rfl
  | .false, _ => rfl
  | .num _, _ => rfl
  | .str s, h => by rw [JDoc.value, JDoc.value, decodeHand_plain rev s (fun c hc => (h c hc).2)]; rfl
  | .arr0 _, _ => rfl
  | .arr l, h => by rw [JDoc.value, JDoc.value, JItems.value_plain F rev (d := l) h]
  | .obj0 _, _ => rfl
  | .obj l, h => by rw [JDoc.value, JDoc.value, JMembers.value_plain F rev (d := l) h]
theorem JPad.value_plain (F : F64) (rev : Bool) : ∀ {d : JPad}, d.Ok plainRules → d.value F handDecode = d.value F (decodeJson rev)
  | .mk _ v _, h => by rw [JPad.value, JPad.value, JDoc.value_plain F rev (d := v) h.2.1]
theorem JItems.value_plain (F : F64) (rev : Bool) : ∀ {d : JItems}, d.Ok plainRules → d.value F handDecode = d.value F (decodeJson rev)
  | .one v, h => by rw [JItems.value, JItems.value, JPad.value_plain F rev (d := v) h]
  | .cons v l, h => by rw [JItems.value, JItems.value, JPad.value_plain F rev (d := v) h.1, JItems.value_plain F rev (d := l) h.2]
theorem JMembers.value_plain (F : F64) (rev : Bool) : ∀ {d : JMembers}, d.Ok plainRules → d.value F handDecode = d.value F (decodeJson rev)
  | .one a k b v, h => by
    rw [JMembers.value, JMembers.value, decodeHand_plain rev k (fun c hc => (h.2.1 c hc).2), JPad.value_plain F rev (d := v) h.2.2.2]; rfl
  | .cons a k b v l, h => by
    rw [JMembers.value, JMembers.value, decodeHand_plain rev k (fun c hc => (h.2.1 c hc).2), JPad.value_plain F rev (d := v) h.2.2.2.1,
      JMembers.value_plain F rev (d := l) h.2.2.2.2]; rfl
end

theorem plain_hand {p : JPad} (h : p.Ok plainRules) : p.Ok handRules :=
  JPad.Ok.mono (R := plainRules) (S := handRules) (fun _ h => IsJsonNumber.hand h) (fun _ h => h.1) (fun _ h => h) h

mutual
theorem JDoc.value_isSome {F : F64} (hF : ∀ l, IsJsonNumber l → (F.parse l).isSome) : ∀ {d : JDoc}, d.Ok plainRules →
    ∃ v, d.value F handDecode = some v
  | .null, _ => ⟨_, rfl⟩
  | .true, _ => ⟨_, rfl⟩
  | .false, _ => ⟨_, rfl⟩
  | .num l, h => by
    obtain ⟨x, hx⟩ := Option.isSome_iff_exists.1 (hF l h)
    exact ⟨.number x, by rw [JDoc.value, hx]; rfl⟩
  | .str s, h => ⟨_, rfl⟩
  | .arr0 _, _ => ⟨_, rfl⟩
  | .arr l, h => by
    obtain ⟨x, hx⟩ := JItems.value_isSome hF (d := l) h
    exact ⟨.array x, by rw [JDoc.value, hx]; rfl⟩
  | .obj0 _, _ => ⟨_, rfl⟩
  | .obj l, h => by
    obtain ⟨x, hx⟩ := JMembers.value_isSome hF (d := l) h
    exact ⟨.object x, by rw [JDoc.value, hx]; rfl⟩
theorem JPad.value_isSome {F : F64} (hF : ∀ l, IsJsonNumber l → (F.parse l).isSome) : ∀ {d : JPad}, d.Ok plainRules →
    ∃ v, d.value F handDecode = some v
  | .mk _ v _, h => JDoc.value_isSome hF (d := v) h.2.1
theorem JItems.value_isSome {F : F64} (hF : ∀ l, IsJsonNumber l → (F.parse l).isSome) : ∀ {d : JItems}, d.Ok plainRules →
    ∃ v, d.value F handDecode = some v
  | .one v, h => by
    obtain ⟨x, hx⟩ := JPad.value_isSome hF (d := v) h
    exact ⟨[x], by rw [JItems.value, hx]; rfl⟩
  | .cons v l, h => by
    obtain ⟨x, hx⟩ := JPad.value_isSome hF (d := v) h.1
    obtain ⟨y, hy⟩ := JItems.value_isSome hF (d := l) h.2
    exact ⟨x :: y, by rw [JItems.value, hx, hy]; rfl⟩
theorem JMembers.value_isSome {F : F64} (hF : ∀ l, IsJsonNumber l → (F.parse l).isSome) : ∀ {d : JMembers}, d.Ok plainRules →
    ∃ v, d.value F handDecode = some v
  | .one a k b v, h => by
    obtain ⟨x, hx⟩ := JPad.value_isSome hF (d := v) h.2.2.2
    exact ⟨[(decodeHand k, x)], by rw [JMembers.value, hx]; rfl⟩
  | .cons a k b v l, h => by
    obtain ⟨x, hx⟩ := JPad.value_isSome hF (d := v) h.2.2.2.1
    obtain ⟨y, hy⟩ := JMembers.value_isSome hF (d := l) h.2.2.2.2
    exact ⟨(decodeHand k, x) :: y, by rw [JMembers.value, hx, hy]; rfl⟩
end

/-- **C54** (RFC 8259). Provided that numbers of RFC 8259 are `f64`s, every document of RFC 8259 without `\u` escapes and without white space
in empty arrays and objects is accepted, with its value. -/
theorem C54_rfc {F : F64} (hF : ∀ l, IsJsonNumber l → (F.parse l).isSome) (m : Ovf) (p : JPad) (h : p.Ok plainRules) :
    ∃ v, p.value F (decodeJson false) = some v ∧ HandJson F m p.text (.ok v) := by
  obtain ⟨v, hv⟩ := JPad.value_isSome hF h
  exact ⟨v, by rw [← JPad.value_plain F false h]; exact hv, handJson_of_doc m (plain_hand h) hv⟩

/-- `f64` kept as text, for an example. -/
def textF64 : F64 := ⟨List Char, some, id⟩

def exRfc : JPad :=
  .mk [' '] (.obj (.one [] [.lit 'a', .esc 'n'] ['\t'] (.mk [] (.arr (.cons (.mk [] (.num "-1.5e+3".toList) []) (.one (.mk ['\n'] (.arr0 []) [])))) []))) []

example : exRfc.text = " {\"a\\n\"\t:[-1.5e+3,\n[]]}".toList := by decide
example : exRfc.Ok plainRules := by
  refine ⟨by intro c hc; simp at hc; exact .inl hc, ⟨fun c hc => (List.not_mem_nil hc).elim, ?_, ?_, fun c hc => (List.not_mem_nil hc).elim, ⟨⟨fun c hc => (List.not_mem_nil hc).elim, ?_, fun c hc => (List.not_mem_nil hc).elim⟩, ?_, ⟨fun c hc => (List.not_mem_nil hc).elim, rfl⟩, fun c hc => (List.not_mem_nil hc).elim⟩, fun c hc => (List.not_mem_nil hc).elim⟩, fun c hc => (List.not_mem_nil hc).elim⟩
  · intro c hc
    simp at hc
    rcases hc with rfl | rfl <;> (show JChar.Ok _ ∧ _; simp [JChar.Ok, JChar.NoUni])
  · intro c hc; simp at hc; simp [hc]
  · exact IsJsonNumber.mk ['-'] ['1'] ['.', '5'] ['e', '+', '3'] (.inr rfl) (.inr ⟨⟨by simp, by decide⟩, by decide⟩)
      (.inr ⟨['5'], rfl, by simp, by decide⟩) (.inr ⟨'e', ['+'], ['3'], rfl, .inl rfl, .inr (.inl rfl), by simp, by decide⟩)
  · intro c hc; simp at hc; simp [hc]
example : ∀ l, IsJsonNumber l → (textF64.parse l).isSome := fun _ _ => rfl

/-! ## C49: `\u` escapes -/

/-- **C49** (fails). `\u0041` is `A`, but the parser makes it NUL, whatever the build. -/
theorem C49_counterexample (F : F64) (m : Ovf) :
    (JPad.mk [] (.str [.uni '0' '0' '4' '1']) []).text = "\"\\u0041\"".toList ∧
    decodeJson false [.uni '0' '0' '4' '1'] = some ['A'] ∧
    HandJson F m "\"\\u0041\"".toList (.ok (.string ['\x00'])) := by
  refine ⟨by decide, by decide, ?_⟩
  refine handJson_of_doc m (p := .mk [] (.str [.uni '0' '0' '4' '1']) []) ⟨fun c hc => (List.not_mem_nil hc).elim, ?_, fun c hc => (List.not_mem_nil hc).elim⟩ rfl
  intro c hc
  simp at hc
  subst hc
  show ∀ x ∈ ['0', '0', '4', '1'], (hexVal x).isSome = true
  decide

/-- **C49** (what happens). Every `\u` escape of four hexadecimal digits becomes NUL: the string that the parser returns has a NUL for
each of them and is otherwise as in RFC 8259; no build and no digits make it panic. -/
theorem C49_all_nul (F : F64) (m : Ovf) (s : List JChar) (hs : ∀ c ∈ s, c.Ok) :
    HandJson F m ('"' :: JChar.textL s ++ ['"']) (.ok (.string (s.map fun
      | .lit c => c
      | .esc e => escapeValue e
      | .uni _ _ _ _ => '\x00'))) := by
  have : (s.map fun
      | .lit c => c
      | .esc e => escapeValue e
      | .uni _ _ _ _ => '\x00') = decodeHand s := by
    clear hs
    induction s with
    | nil => rfl
    | cons x s ih => cases x <;> simp [decodeHand, ih]
  rw [this]
  have := handJson_of_doc m (F := F) (p := .mk [] (.str s) []) ⟨fun c hc => (List.not_mem_nil hc).elim, hs, fun c hc => (List.not_mem_nil hc).elim⟩ rfl
  simpa [JPad.text, JDoc.text] using this

/-- **C49** (partial). Strings without `\u` escapes are decoded as in RFC 8259. -/
theorem C49_decode_partial (F : F64) (m : Ovf) (s : List JChar) (hs : ∀ c ∈ s, c.Ok) (hn : ∀ c ∈ s, c.NoUni) :
    ∃ t, decodeJson false s = some t ∧ HandJson F m ('"' :: JChar.textL s ++ ['"']) (.ok (.string t)) := by
  refine ⟨_, decodeHand_plain false s hn, ?_⟩
  have := handJson_of_doc m (F := F) (p := .mk [] (.str s) []) ⟨fun c hc => (List.not_mem_nil hc).elim, hs, fun c hc => (List.not_mem_nil hc).elim⟩ rfl
  simpa [JPad.text, JDoc.text] using this

example : decodeJson false [.lit 'a', .esc 'n', .lit 'é', .esc '/'] = some ['a', '\n', 'é', '/'] := by decide
example : ∀ c ∈ [JChar.lit 'a', .esc 'n', .lit 'é', .esc '/'], c.Ok ∧ c.NoUni := by
  intro c hc
  simp at hc
  rcases hc with rfl | rfl | rfl | rfl <;> simp [JChar.Ok, JChar.NoUni]

/-! ## C50: display -/

/-- The characters that can be displayed in a string: all except control characters without a short escape. -/
def Displayable (c : Char) : Prop := 0x20 ≤ c.toNat ∨ c ∈ ['\x08', '\x0C', '\n', '\r', '\t']

/-- How `write_str` writes a character. -/
def charDoc (c : Char) : JChar :=
  if c = '"' then .esc '"'
  else if c = '\\' then .esc '\\'
  else if c = '\x08' then .esc 'b'
  else if c = '\x0C' then .esc 'f'
  else if c = '\n' then .esc 'n'
  else if c = '\r' then .esc 'r'
  else if c = '\t' then .esc 't'
  else .lit c

theorem charDoc_spec (m : Ovf) (c : Char) (h : Displayable c) :
    writeChar m c = some (charDoc c).text ∧ (charDoc c).Ok ∧ decodeHand [charDoc c] = [c] := by
  by_cases h1 : c = '"'
  · subst h1; exact ⟨rfl, by simp [charDoc, JChar.Ok], rfl⟩
  by_cases h2 : c = '\\'
  · subst h2; exact ⟨rfl, by simp [charDoc, JChar.Ok], rfl⟩
  by_cases h3 : c = '\x08'
  · subst h3; exact ⟨rfl, by simp [charDoc, JChar.Ok], rfl⟩
  by_cases h4 : c = '\x0C'
  · subst h4; exact ⟨rfl, by simp [charDoc, JChar.Ok], rfl⟩
  by_cases h5 : c = '\n'
  · subst h5; exact ⟨rfl, by simp [charDoc, JChar.Ok], rfl⟩
  by_cases h6 : c = '\r'
  · subst h6; exact ⟨rfl, by simp [charDoc, JChar.Ok], rfl⟩
  by_cases h7 : c = '\t'
  · subst h7; exact ⟨rfl, by simp [charDoc, JChar.Ok], rfl⟩
  have h8 : 0x20 ≤ c.toNat := by
    rcases h with h | h
    · exact h
    · simp at h
      rcases h with h | h | h | h | h
      · exact absurd h h3
      · exact absurd h h4
      · exact absurd h h5
      · exact absurd h h6
      · exact absurd h h7
  have h9 : jsonPlain c = true := (jsonPlain_iff c).2 ⟨h8, h1, h2⟩
  have h10 : charDoc c = .lit c := by
    rw [charDoc, if_neg h1, if_neg h2, if_neg h3, if_neg h4, if_neg h5, if_neg h6, if_neg h7]
  rw [h10]
  exact ⟨by rw [writeChar, if_pos h9]; rfl, ⟨h8, h1, h2⟩, rfl⟩

theorem writeChars_doc (m : Ovf) : ∀ s : List Char, (∀ c ∈ s, Displayable c) →
    writeChars m s = some (JChar.textL (s.map charDoc)) ∧ (∀ c ∈ s.map charDoc, c.Ok) ∧ decodeHand (s.map charDoc) = s
  | [], _ => ⟨rfl, by simp, rfl⟩
  | c :: s, h => by
    obtain ⟨h1, h2, h3⟩ := charDoc_spec m c (h c (by simp))
    obtain ⟨h4, h5, h6⟩ := writeChars_doc m s (fun x hx => h x (by simp [hx]))
    refine ⟨by rw [writeChars, h1, h4]; simp [JChar.textL], ?_, ?_⟩
    · intro x hx
      rcases List.mem_cons.1 hx with rfl | hx
      · exact h2
      · exact h5 x hx
    · rw [List.map_cons, decodeHand_cons, h3, h6]; rfl

theorem writeStr_doc (m : Ovf) (s : List Char) (h : ∀ c ∈ s, Displayable c) :
    writeStr m s = some ('"' :: JChar.textL (s.map charDoc) ++ ['"']) := by
  rw [writeStr, (writeChars_doc m s h).1]; rfl

/-- **C50** (partial: strings without control characters other than BS, FF, LF, CR and TAB). Displaying the string works, and parsing
the result gives it back. -/
theorem C50_string_roundtrip_partial (F : F64) (m : Ovf) (s : List Char) (h : ∀ c ∈ s, Displayable c) :
    ∃ t, (JValue.string s : JValue F).display m = some t ∧ HandJson F m t (.ok (.string s)) := by
  refine ⟨_, writeStr_doc m s h, ?_⟩
  obtain ⟨-, h2, h3⟩ := writeChars_doc m s h
  have := handJson_of_doc m (F := F) (p := .mk [] (.str (s.map charDoc)) []) (v := .string s)
    ⟨fun c hc => (List.not_mem_nil hc).elim, h2, fun c hc => (List.not_mem_nil hc).elim⟩
    (by rw [JPad.value, JDoc.value, handDecode, h3]; rfl)
  simpa [JPad.text, JDoc.text] using this

theorem writeChar_none (m : Ovf) (c : Char) (h : ¬ Displayable c) : writeChar m c = none := by
  have h1 : c.toNat < 0x20 := by
    unfold Displayable at h; omega
  have h2 : c ∉ ['\x08', '\x0C', '\n', '\r', '\t'] := fun e => h (.inr e)
  simp at h2
  have h3 : ¬ jsonPlain c = true := by rw [jsonPlain_iff]; omega
  have h4 : c ≠ '"' := by rintro rfl; exact absurd h1 (by decide)
  have h5 : c ≠ '\\' := by rintro rfl; exact absurd h1 (by decide)
  rw [writeChar, if_neg h3, if_neg h4, if_neg h5, if_neg h2.1, if_neg h2.2.1, if_neg h2.2.2.1, if_neg h2.2.2.2.1,
    if_neg h2.2.2.2.2]
  have h6 : ¬ 0x10000 ≤ c.toNat := by omega
  cases m with
  | checked =>
    have h7 : subU32 .checked c.toNat 0x10000 = none := by rw [subU32, if_neg h6]
    rw [h7, Option.bind_none]
  | wrapping =>
    have h7 : subU32 .wrapping c.toNat 0x10000 = some (c.toNat + 4294967296 - 0x10000) := by rw [subU32, if_neg h6]
    have h8 : unwrapU16 ((c.toNat + 4294967296 - 0x10000) / 0x400 + 0xD800) = none := by
      rw [unwrapU16, if_neg]
      generalize c.toNat = x at *
      omega
    rw [h7, Option.bind_some, h8, Option.bind_none]

/-- **C50** (fails otherwise). Displaying a string with any other control character panics, whether or not overflow is checked. -/
theorem C50_display_panics (F : F64) (m : Ovf) (s : List Char) (h : ∃ c ∈ s, ¬ Displayable c) :
    (JValue.string s : JValue F).display m = none := by
  have : writeChars m s = none := by
    induction s with
    | nil => obtain ⟨c, hc, -⟩ := h; cases hc
    | cons x s ih =>
      rw [writeChars]
      by_cases hx : Displayable x
      · rw [(charDoc_spec m x hx).1, Option.bind_some, ih]
        · rfl
        · obtain ⟨c, hc, hd⟩ := h
          rcases List.mem_cons.1 hc with rfl | hc
          · exact absurd hx hd
          · exact ⟨c, hc, hd⟩
      · rw [writeChar_none m x hx]; rfl
  rw [JValue.display, writeStr, this]; rfl

/-- Such strings do come out of the parser. -/
example (F : F64) (m : Ovf) : ∃ v, HandJson F m "\"\\u0041\"".toList (.ok v) ∧ v.display m = none := by
  refine ⟨_, (C49_counterexample F m).2.2, C50_display_panics F m _ ⟨'\x00', by simp, ?_⟩⟩
  unfold Displayable; decide

mutual
/-- All strings and keys can be displayed, and all numbers are displayed as numbers that the parser reads back. -/
def JValue.Displayable {F : F64} : JValue F → Prop
  | .null => True
  | .bool _ => True
  | .number n => HandNumber (F.display n) ∧ F.parse (F.display n) = some n
  | .string s => ∀ c ∈ s, Chomp.Displayable c
  | .array l => JValue.DisplayableL l
  | .object l => JValue.DisplayableO l
def JValue.DisplayableL {F : F64} : List (JValue F) → Prop
  | [] => True
  | v :: l => v.Displayable ∧ JValue.DisplayableL l
def JValue.DisplayableO {F : F64} : List (List Char × JValue F) → Prop
  | [] => True
  | (k, v) :: l => (∀ c ∈ k, Chomp.Displayable c) ∧ v.Displayable ∧ JValue.DisplayableO l
end

theorem isWs_nil : IsWs [] := fun c hc => (List.not_mem_nil hc).elim
theorem isWs_space : IsWs [' '] := by intro c hc; simp at hc; exact .inl hc

mutual
theorem JValue.display_doc {F : F64} (m : Ovf) : ∀ v : JValue F, v.Displayable →
    ∃ d : JDoc, v.display m = some d.text ∧ d.Ok handRules ∧ d.value F handDecode = some v
  | .null, _ => ⟨.null, rfl, trivial, rfl⟩
  | .bool true, _ => ⟨.true, rfl, trivial, rfl⟩
  | .bool false, _ => ⟨.false, rfl, trivial, rfl⟩
  | .number n, h => ⟨.num (F.display n), rfl, h.1, by rw [JDoc.value, h.2]; rfl⟩
  | .string s, h => by
    obtain ⟨-, h2, h3⟩ := writeChars_doc m s h
    exact ⟨.str (s.map charDoc), by rw [JValue.display, writeStr_doc m s h]; rfl, h2, by rw [JDoc.value, handDecode, h3]; rfl⟩
  | .array [], _ => ⟨.arr0 [], rfl, ⟨isWs_nil, rfl⟩, rfl⟩
  | .array (v :: l), h => by
    obtain ⟨d, t, h1, h2, h3, h4⟩ := JValue.displayL_doc m (v :: l) (by simp) h [] isWs_nil
    exact ⟨.arr d, by rw [JValue.display, h1, JDoc.text, h2]; rfl, h3, by rw [JDoc.value, h4]; rfl⟩
  | .object [], _ => ⟨.obj0 [], rfl, ⟨isWs_nil, rfl⟩, rfl⟩
  | .object (v :: l), h => by
    obtain ⟨d, t, h1, h2, h3, h4⟩ := JValue.displayO_doc m (v :: l) (by simp) h [] isWs_nil
    exact ⟨.obj d, by rw [JValue.display, h1, JDoc.text, h2]; rfl, h3, by rw [JDoc.value, h4]; rfl⟩
theorem JValue.displayL_doc {F : F64} (m : Ovf) : ∀ l : List (JValue F), l ≠ [] → JValue.DisplayableL l → ∀ ws, IsWs ws →
    ∃ (d : JItems) (t : List Char), JValue.displayL m l = some t ∧ d.text = ws ++ t ∧ d.Ok handRules ∧ d.value F handDecode = some l
  | [], h, _, _, _ => absurd rfl h
  | v :: l, _, h, ws, hws => by
    obtain ⟨d, h1, h2, h3⟩ := JValue.display_doc m v h.1
    have ih := JValue.displayL_doc m l
    cases l with
    | nil =>
      refine ⟨.one (.mk ws d []), _, by rw [JValue.displayL, h1]; rfl, ?_, ⟨hws, h2, isWs_nil⟩, by rw [JItems.value, JPad.value, h3]; rfl⟩
      simp [JItems.text, JPad.text]
    | cons v' l' =>
      obtain ⟨d', t, h4, h5, h6, h7⟩ := ih (by simp) h.2 [' '] isWs_space
      refine ⟨.cons (.mk ws d []) d', _, by rw [JValue.displayL, h1, h4]; rfl, ?_, ⟨⟨hws, h2, isWs_nil⟩, h6⟩, by
        rw [JItems.value, JPad.value, h3, h7]; rfl⟩
      simp [JItems.text, JPad.text, h5]
theorem JValue.displayO_doc {F : F64} (m : Ovf) : ∀ l : List (List Char × JValue F), l ≠ [] → JValue.DisplayableO l → ∀ ws, IsWs ws →
    ∃ (d : JMembers) (t : List Char), JValue.displayO m l = some t ∧ d.text = ws ++ t ∧ d.Ok handRules ∧ d.value F handDecode = some l
  | [], h, _, _, _ => absurd rfl h
  | (k, v) :: l, _, h, ws, hws => by
    obtain ⟨d, h1, h2, h3⟩ := JValue.display_doc m v h.2.1
    obtain ⟨-, hk2, hk3⟩ := writeChars_doc m k h.1
    have ih := JValue.displayO_doc m l
    cases l with
    | nil =>
      refine ⟨.one ws (k.map charDoc) [' '] (.mk [' '] d []), _, by rw [JValue.displayO, writeStr_doc m k h.1, h1]; rfl, ?_,
        ⟨hws, hk2, isWs_space, isWs_space, h2, isWs_nil⟩, by rw [JMembers.value, JPad.value, h3, handDecode, hk3]; rfl⟩
      simp [JMembers.text, JPad.text]
    | cons v' l' =>
      obtain ⟨d', t, h4, h5, h6, h7⟩ := ih (by simp) h.2.2 [' '] isWs_space
      refine ⟨.cons ws (k.map charDoc) [' '] (.mk [' '] d []) d', _, by rw [JValue.displayO, writeStr_doc m k h.1, h1, h4]; rfl, ?_,
        ⟨hws, hk2, isWs_space, ⟨isWs_space, h2, isWs_nil⟩, h6⟩, by rw [JMembers.value, JPad.value, h3, h7, handDecode, hk3]; rfl⟩
      simp [JMembers.text, JPad.text, h5]
end

/-- **C50** (whole values, partial in the same way). Displaying a value works, and parsing the result gives it back. -/
theorem C50_value_roundtrip_partial (F : F64) (m : Ovf) (v : JValue F) (h : v.Displayable) :
    ∃ t, v.display m = some t ∧ HandJson F m t (.ok v) := by
  obtain ⟨d, h1, h2, h3⟩ := v.display_doc m h
  refine ⟨d.text, h1, ?_⟩
  have := handJson_of_doc m (F := F) (p := .mk [] d []) (v := v) ⟨isWs_nil, h2, isWs_nil⟩ h3
  simpa [JPad.text] using this

/-- Numbers for examples: digit strings. -/
def toyF64 : F64 := ⟨Nat, fun l => if l.all Char.isDigit then some (l.foldl (fun n c => n * 10 + (c.toNat - 48)) 0) else none, fun n => (toString n).toList⟩

instance : DecidableEq toyF64.Num := inferInstanceAs (DecidableEq Nat)

def exValue : JValue toyF64 := .object [("a\n\"".toList, .array [.null, .number (12 : Nat), .bool true]), ("é\\".toList, .object [])]

example : exValue.display .checked = some "{\"a\\n\\\"\" : [null, 12, true], \"é\\\\\" : {}}".toList := by decide +kernel
example : exValue.Displayable := by
  refine ⟨?_, ⟨trivial, ⟨⟨'1', ['2'], by decide +kernel, .inl (by decide), by decide⟩, by decide +kernel⟩, trivial, trivial⟩, ?_, trivial, trivial⟩ <;>
    (unfold Displayable; decide)

/-! ## C51: white space -/

mutual
/-- The document without white space. -/
def JDoc.strip : JDoc → JDoc
  | .null => .null
  | .true => .true
  | .false => .false
  | .num l => .num l
  | .str s => .str s
  | .arr0 _ => .arr0 []
  | .arr l => .arr l.strip
  | .obj0 _ => .obj0 []
  | .obj l => .obj l.strip
def JPad.strip : JPad → JPad
  | .mk _ v _ => .mk [] v.strip []
def JItems.strip : JItems → JItems
  | .one v => .one v.strip
  | .cons v l => .cons v.strip l.strip
def JMembers.strip : JMembers → JMembers
  | .one _ k _ v => .one [] k [] v.strip
  | .cons _ k _ v l => .cons [] k [] v.strip l.strip
end

mutual
theorem JDoc.strip_value (F : F64) (dec : List JChar → Option (List Char)) : ∀ d : JDoc, d.strip.value F dec = d.value F dec
  | .null => rfl
  | .true => rfl
  | .false => rfl
  | .num _ => rfl
  | .str _ => rfl
  | .arr0 _ => rfl
  | .arr l => by rw [JDoc.strip, JDoc.value, JDoc.value, JItems.strip_value F dec l]
  | .obj0 _ => rfl
  | .obj l => by rw [JDoc.strip, JDoc.value, JDoc.value, JMembers.strip_value F dec l]
theorem JPad.strip_value (F : F64) (dec : List JChar → Option (List Char)) : ∀ d : JPad, d.strip.value F dec = d.value F dec
  | .mk _ v _ => by rw [JPad.strip, JPad.value, JPad.value, JDoc.strip_value F dec v]
theorem JItems.strip_value (F : F64) (dec : List JChar → Option (List Char)) : ∀ d : JItems, d.strip.value F dec = d.value F dec
  | .one v => by rw [JItems.strip, JItems.value, JItems.value, JPad.strip_value F dec v]
  | .cons v l => by rw [JItems.strip, JItems.value, JItems.value, JPad.strip_value F dec v, JItems.strip_value F dec l]
theorem JMembers.strip_value (F : F64) (dec : List JChar → Option (List Char)) : ∀ d : JMembers, d.strip.value F dec = d.value F dec
  | .one _ k _ v => by rw [JMembers.strip, JMembers.value, JMembers.value, JPad.strip_value F dec v]
  | .cons _ k _ v l => by
    rw [JMembers.strip, JMembers.value, JMembers.value, JPad.strip_value F dec v, JMembers.strip_value F dec l]
end

mutual
theorem JDoc.strip_ok : ∀ {d : JDoc}, d.Ok handRules → d.strip.Ok handRules
  | .null, _ => trivial
  | .true, _ => trivial
  | .false, _ => trivial
  | .num _, h => h
  | .str _, h => h
  | .arr0 _, h => ⟨isWs_nil, rfl⟩
  | .arr l, h => JItems.strip_ok (d := l) h
  | .obj0 _, h => ⟨isWs_nil, rfl⟩
  | .obj l, h => JMembers.strip_ok (d := l) h
theorem JPad.strip_ok : ∀ {d : JPad}, d.Ok handRules → d.strip.Ok handRules
  | .mk _ v _, h => ⟨isWs_nil, JDoc.strip_ok (d := v) h.2.1, isWs_nil⟩
theorem JItems.strip_ok : ∀ {d : JItems}, d.Ok handRules → d.strip.Ok handRules
  | .one v, h => JPad.strip_ok (d := v) h
  | .cons v l, h => ⟨JPad.strip_ok (d := v) h.1, JItems.strip_ok (d := l) h.2⟩
theorem JMembers.strip_ok : ∀ {d : JMembers}, d.Ok handRules → d.strip.Ok handRules
  | .one _ k _ v, h => ⟨isWs_nil, h.2.1, isWs_nil, JPad.strip_ok (d := v) h.2.2.2⟩
  | .cons _ k _ v l, h => ⟨isWs_nil, h.2.1, isWs_nil, JPad.strip_ok (d := v) h.2.2.2.1, JMembers.strip_ok (d := l) h.2.2.2.2⟩
end

/-- **C51** (partial: no white space in empty arrays and objects). White space anywhere else between tokens makes no difference: two documents that
are the same without it are parsed to the same value. -/
theorem C51_whitespace_partial (F : F64) (m : Ovf) (p q : JPad) (h : p.strip = q.strip) (hp : p.Ok handRules)
    (hq : q.Ok handRules) (v : JValue F) (hv : p.value F handDecode = some v) :
    HandJson F m p.text (.ok v) ∧ HandJson F m q.text (.ok v) := by
  refine ⟨handJson_of_doc m hp hv, handJson_of_doc m hq ?_⟩
  rw [← q.strip_value, ← h, p.strip_value, hv]

/-- In particular all white space can be removed. -/
theorem C51_strip_partial (F : F64) (m : Ovf) (p : JPad) (hp : p.Ok handRules) (v : JValue F) (h : HandJson F m p.text (.ok v))
    (hv : (p.value F handDecode).isSome) : HandJson F m p.strip.text (.ok v) := by
  obtain ⟨v', hv'⟩ := Option.isSome_iff_exists.1 hv
  have := handJson_of_doc m hp hv'
  cases h.unique this
  exact handJson_of_doc m (JPad.strip_ok hp) (by rw [p.strip_value]; exact hv')

def exDoc : JPad := .mk ['\n'] (.arr (.cons (.mk [' '] (.num ['1']) ['\t']) (.one (.mk [] (.obj (.one [' '] [.lit 'k'] [' '] (.mk [' '] (.arr0 []) [' ']))) [])))) [' ']

example : exDoc.text = "\n[ 1\t,{ \"k\" : [] }] ".toList ∧ exDoc.strip.text = "[1,{\"k\":[]}]".toList := by decide

/-- **C51** (fails). White space in an empty array or object is an error, though RFC 8259 allows it. -/
theorem C51_counterexample (F : F64) (m : Ovf) :
    (JPad.mk [] (.arr0 [' ']) []).text = "[ ]".toList ∧ (JPad.mk [] (.arr0 [' ']) []).Ok rfcRules ∧
    (∃ e, HandJson F m "[ ]".toList (.err e)) ∧ (∃ e, HandJson F m "{ }".toList (.err e)) ∧
    HandJson F m "[]".toList (.ok (.array [])) ∧ HandJson F m "{}".toList (.ok (.object [])) := by
  refine ⟨by decide, ⟨isWs_nil, ⟨isWs_space, trivial⟩, isWs_nil⟩, ⟨_, by simp, 5, rfl⟩, ⟨_, by simp, 5, rfl⟩,
    ⟨by simp, 5, rfl⟩, ⟨by simp, 5, rfl⟩⟩

end Chomp
