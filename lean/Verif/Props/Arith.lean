import Verif.Bench.ArithParse

/-! # C46: the hand-written arithmetic parser

The theorems say what `parse_expr` does on every text, in builds where arithmetic overflow panics
(`.checked`) and in builds where it wraps around (`.wrapping`).  Expressions, their texts and their
values are defined in `Verif/Bench/ArithSpec.lean` without reference to a parser. -/

namespace Chomp

attribute [local irreducible] Ovf.fit InI64 divI64

/-- `parse_expr` on `text` ends with `r`. -/
def HandParses (m : Ovf) (text : List Char) (r : ParseRes Int) : Prop :=
  r ≠ .oof ∧ ∃ n, arithParse m n (IW.new text) = r

theorem parseWith_fuel {α : Type} {f g : IW → Res α} {w : IW} (h : f w ≠ .oof → g w = f w)
    (hn : parseWith f w ≠ .oof) : parseWith g w = parseWith f w := by
  have : f w ≠ .oof := by intro e; apply hn; rw [parseWith, e]
  rw [parseWith, parseWith, h this]

theorem HandParses.unique {m : Ovf} {text : List Char} {r r' : ParseRes Int} (h : HandParses m text r)
    (h' : HandParses m text r') : r = r' := by
  obtain ⟨h1, n, h2⟩ := h
  obtain ⟨h3, k, h4⟩ := h'
  have e1 := parseWith_fuel (takeExpr_mono m (Nat.le_max_left n k) _) (by rw [← h2] at h1; exact h1)
  have e2 := parseWith_fuel (takeExpr_mono m (Nat.le_max_right n k) _) (by rw [← h4] at h3; exact h3)
  rw [← h2, ← h4, arithParse, arithParse, ← e1, ← e2]

/-- **C46** (termination). On every text `parse_expr` ends with exactly one outcome. -/
theorem C46_ends (m : Ovf) (text : List Char) : ∃ r, HandParses m text r ∧ ∀ r', HandParses m text r' → r' = r := by
  let w := arithSpaces (IW.new text)
  have h := (arith_ends m (4 * w.rem.length + 3)).2.2.2.2 w (Nat.le_refl _)
  refine ⟨_, ⟨?_, _, rfl⟩, fun r' h' => h'.unique ⟨?_, 4 * w.rem.length + 3, rfl⟩⟩
  all_goals
    show parseWith (takeExpr m (4 * w.rem.length + 3)) w ≠ .oof
    unfold parseWith
    split
    · split <;> simp
    · simp
    · simp
    · rename_i e; exact absurd e h

theorem handParses_of_text (m : Ovf) (i : AInput) :
    HandParses m i.text (match i.sum.eval m with | some v => .ok v | none => .panic) := by
  have hw : (arithSpaces (IW.new i.text)).rem = i.sum.text ++ [] := by
    refine arithSpaces_spaces (n := i.sp) (by rw [IW.rem_new, AInput.text]; simp) ?_
    exact head_append_ne i.sum.text_cons
  have hc := ASum.complete m i.sum [] _ hw ⟨⟨fun c hc => by simp at hc, by simp, by simp⟩, by simp, by simp⟩
  cases ho : i.sum.eval m with
  | none =>
    rw [ho] at hc
    obtain ⟨N, hN⟩ := hc
    refine ⟨by simp, N, ?_⟩
    rw [arithParse, parseWith, hN N (Nat.le_refl _)]
  | some v =>
    rw [ho] at hc
    obtain ⟨N, w', h1, hN⟩ := hc
    refine ⟨by simp, N, ?_⟩
    rw [arithParse, parseWith, hN N (Nat.le_refl _)]
    simp only
    rw [IW.peek_eq, h1]
    rfl

/-- **C46.** `parse_expr` returns `v` on exactly the texts of the arithmetic expressions with value `v`. -/
theorem C46_value (m : Ovf) (text : List Char) (v : Int) :
    HandParses m text (.ok v) ↔ ∃ i : AInput, i.text = text ∧ i.sum.eval m = some v := by
  constructor
  · rintro ⟨-, n, h⟩
    rw [arithParse, parseWith] at h
    split at h
    · rename_i a w h1
      obtain ⟨e, he, hv⟩ := (arith_sound m n).2.2.2.2 _ _ _ h1
      split at h
      · cases h
      · rename_i w' hp
        cases h
        have : w.rem = [] := by
          rw [← IW.peek_none]
          rw [hp]
        rw [this, List.append_nil] at he
        obtain ⟨k, hk⟩ := arithSpaces_sound (IW.new text)
        rw [IW.rem_new] at hk
        exact ⟨⟨k, e⟩, by rw [hk, he]; rfl, hv⟩
    all_goals cases h
  · rintro ⟨i, rfl, hv⟩
    have := handParses_of_text m i
    rw [hv] at this
    exact this

/-- **C46** (arithmetic errors). On the text of an expression whose evaluation divides by zero or (in
builds that check) overflows, `parse_expr` panics. -/
theorem C46_arithmetic_error (m : Ovf) (i : AInput) (h : i.sum.eval m = none) : HandParses m i.text .panic := by
  have := handParses_of_text m i
  rw [h] at this
  exact this

/-- **C46** (other texts). A text that is no expression is rejected, unless an arithmetic error happens
first. -/
theorem C46_rejects (m : Ovf) (text : List Char) (h : ¬ ∃ i : AInput, i.text = text) :
    (∃ e, HandParses m text (.err e)) ∨ HandParses m text .panic := by
  obtain ⟨r, hr, -⟩ := C46_ends m text
  cases r with
  | ok v =>
    obtain ⟨i, hi, -⟩ := (C46_value m text v).1 hr
    exact absurd ⟨i, hi⟩ h
  | err e => exact .inl ⟨e, hr⟩
  | panic => exact .inr hr
  | oof => exact absurd rfl hr.1

theorem Ovf.fit_checked {x v : Int} (h : Ovf.checked.fit x = some v) : v = x := by
  by_cases hx : InI64 x
  · rw [Ovf.fit_checked_pos hx] at h; cases h; rfl
  · rw [Ovf.fit_checked_neg hx] at h; cases h

theorem bin_some {f : Int → Int → Option Int} {a b : Option Int} {v : Int} (h : bin f a b = some v) :
    ∃ x y, a = some x ∧ b = some y ∧ f x y = some v := by
  unfold bin at h
  cases a with
  | none => cases h
  | some x =>
    cases b with
    | none => cases h
    | some y => exact ⟨x, y, rfl, rfl, h⟩

section
attribute [local semireducible] divI64
theorem divI64_some {a b v : Int} (h : divI64 a b = some v) : b ≠ 0 ∧ v = a.tdiv b := by
  unfold divI64 at h
  split at h
  · cases h
  · split at h
    · cases h; exact ⟨by assumption, rfl⟩
    · cases h
end

mutual
theorem ATerm.exact_of_eval : ∀ (t : ATerm) (v : Int), t.eval .checked = some v → t.exact = some v
  | .pos n _, v, h => by rw [ATerm.eval] at h; rw [ATerm.exact, Ovf.fit_checked h]
  | .neg _ n _, v, h => by
    rw [ATerm.eval] at h
    cases ho : Ovf.checked.fit n.val with
    | none => rw [ho] at h; cases h
    | some x =>
      rw [ho, Option.bind_some] at h
      rw [ATerm.exact, Ovf.fit_checked h, Ovf.fit_checked ho]
  | .paren _ e _, v, h => by rw [ATerm.eval] at h; rw [ATerm.exact]; exact ASum.exact_of_eval e v h
theorem AProd.exact_of_eval : ∀ (t : AProd) (v : Int), t.eval .checked = some v → t.exact = some v
  | .term t, v, h => by rw [AProd.eval] at h; rw [AProd.exact]; exact ATerm.exact_of_eval t v h
  | .mul l _ r, v, h => by
    rw [AProd.eval] at h
    obtain ⟨x, y, h1, h2, h3⟩ := bin_some h
    rw [AProd.exact, AProd.exact_of_eval l x h1, ATerm.exact_of_eval r y h2, Ovf.fit_checked h3]
    rfl
  | .div l _ r, v, h => by
    rw [AProd.eval] at h
    obtain ⟨x, y, h1, h2, h3⟩ := bin_some h
    obtain ⟨h4, rfl⟩ := divI64_some h3
    rw [AProd.exact, AProd.exact_of_eval l x h1, ATerm.exact_of_eval r y h2]
    simp [bin, h4]
theorem ASum.exact_of_eval : ∀ (t : ASum) (v : Int), t.eval .checked = some v → t.exact = some v
  | .prod t, v, h => by rw [ASum.eval] at h; rw [ASum.exact]; exact AProd.exact_of_eval t v h
  | .add l _ r, v, h => by
    rw [ASum.eval] at h
    obtain ⟨x, y, h1, h2, h3⟩ := bin_some h
    rw [ASum.exact, ASum.exact_of_eval l x h1, AProd.exact_of_eval r y h2, Ovf.fit_checked h3]
    rfl
  | .sub l _ r, v, h => by
    rw [ASum.eval] at h
    obtain ⟨x, y, h1, h2, h3⟩ := bin_some h
    rw [ASum.exact, ASum.exact_of_eval l x h1, AProd.exact_of_eval r y h2, Ovf.fit_checked h3]
    rfl
end

/-- **C46** (exactness). In builds that check for overflow a returned value is the exact value of the
expression, in integers with truncating division. -/
theorem C46_exact (text : List Char) (v : Int) (h : HandParses .checked text (.ok v)) :
    ∃ i : AInput, i.text = text ∧ i.sum.exact = some v := by
  obtain ⟨i, h1, h2⟩ := (C46_value _ _ _).1 h
  exact ⟨i, h1, ASum.exact_of_eval _ _ h2⟩

/-- `8 - (-7 / 2) * 3 - 1` -/
def exArith : AInput :=
  ⟨1, .sub (.sub (.prod (.term (.pos ⟨8, []⟩ 1))) 1
    (.mul (.term (.paren 0 (.prod (.div (.term (.neg 0 ⟨7, []⟩ 1)) 1 (.pos ⟨2, []⟩ 0))) 1)) 1 (.pos ⟨3, []⟩ 1))) 1
    (.term (.pos ⟨1, [0]⟩ 0))⟩

example : exArith.text = " 8 - (-7 / 2) * 3 - 10".toList := by decide +kernel
example : exArith.sum.eval .checked = some 7 := by decide +kernel
example : HandParses .checked " 8 - (-7 / 2) * 3 - 10".toList (.ok 7) :=
  (C46_value _ _ _).2 ⟨exArith, by decide +kernel, by decide +kernel⟩
/-- An overflow. -/
example : HandParses .checked "9223372036854775807+1".toList .panic ∧
    HandParses .wrapping "9223372036854775807+1".toList (.ok (-9223372036854775808)) :=
  ⟨⟨by simp, 100, by decide +kernel⟩, ⟨by simp, 100, by decide +kernel⟩⟩
/-- Division by zero. -/
example : (⟨0, .prod (.div (.term (.pos ⟨1, []⟩ 0)) 0 (.pos ⟨0, []⟩ 0))⟩ : AInput).sum.eval .wrapping = none := by
  decide +kernel
/-- No expression, but the panic comes before the error is found. -/
example : HandParses .checked "1/0+".toList .panic := ⟨by simp, 100, by decide +kernel⟩

end Chomp
