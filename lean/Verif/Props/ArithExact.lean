import Verif.Props.ArithNibble

/-! # C47: builds without overflow checks, exactly -/

namespace Chomp

mutual
/-- The numerals of an expression. -/
def ATerm.numerals : ATerm → List Numeral
  | .pos n _ => [n]
  | .neg _ n _ => [n]
  | .paren _ e _ => e.numerals
def AProd.numerals : AProd → List Numeral
  | .term t => t.numerals
  | .mul l _ r => l.numerals ++ r.numerals
  | .div l _ r => l.numerals ++ r.numerals
def ASum.numerals : ASum → List Numeral
  | .prod p => p.numerals
  | .add l _ r => l.numerals ++ r.numerals
  | .sub l _ r => l.numerals ++ r.numerals
end

theorem fit_checked_iff {x v : Int} : Ovf.checked.fit x = some v ↔ InI64 x ∧ v = x := by
  by_cases hx : InI64 x
  · rw [Ovf.fit_checked_pos hx]
    simp [hx, eq_comm]
  · rw [Ovf.fit_checked_neg hx]
    simp [hx]

theorem fit_wide {m : Ovf} {x : Int} (hx : InI64 x) : m.fit x = some x := Ovf.fit_of_checked (fit_checked_iff.2 ⟨hx, rfl⟩)

theorem bin_iff {f : Int → Int → Option Int} {a b a' b' : Option Int} {v : Int} {l r : List Numeral}
    (ha : ∀ x, a = some x ↔ a' = some x ∧ ∀ n ∈ l, InI64 n.val) (hb : ∀ x, b = some x ↔ b' = some x ∧ ∀ n ∈ r, InI64 n.val) :
    bin f a b = some v ↔ bin f a' b' = some v ∧ ∀ n ∈ l ++ r, InI64 n.val := by
  constructor
  · intro h
    obtain ⟨x, y, h1, h2, h3⟩ := bin_some h
    obtain ⟨h4, h5⟩ := (ha x).1 h1
    obtain ⟨h6, h7⟩ := (hb y).1 h2
    refine ⟨by rw [h4, h6]; exact h3, fun n hn => ?_⟩
    rcases List.mem_append.1 hn with hn | hn
    · exact h5 n hn
    · exact h7 n hn
  · rintro ⟨h, hn⟩
    obtain ⟨x, y, h1, h2, h3⟩ := bin_some h
    rw [(ha x).2 ⟨h1, fun n hm => hn n (List.mem_append_left _ hm)⟩, (hb y).2 ⟨h2, fun n hm => hn n (List.mem_append_right _ hm)⟩]
    exact h3

mutual
theorem ATerm.strict_iff (m : Ovf) : ∀ (t : ATerm) (v : Int), t.strict m = some v ↔ t.eval m = some v ∧ ∀ n ∈ t.numerals, InI64 n.val
  | .pos n _, v => by
    rw [ATerm.strict, ATerm.eval, ATerm.numerals, fit_checked_iff]
    constructor
    · rintro ⟨h, rfl⟩
      exact ⟨fit_wide h, by simpa using h⟩
    · rintro ⟨h1, h2⟩
      have h2 : InI64 n.val := h2 n (.head _)
      rw [fit_wide h2] at h1
      cases h1
      exact ⟨h2, rfl⟩
  | .neg _ n _, v => by
    rw [ATerm.strict, ATerm.eval, ATerm.numerals]
    constructor
    · intro h
      cases hc : Ovf.checked.fit n.val with
      | none => rw [hc] at h; cases h
      | some x =>
        obtain ⟨h1, rfl⟩ := fit_checked_iff.1 hc
        rw [hc] at h
        rw [fit_wide h1]
        exact ⟨h, by simpa using h1⟩
    · rintro ⟨h1, h2⟩
      have h2 : InI64 n.val := h2 n (.head _)
      rw [fit_wide h2] at h1
      rw [fit_wide h2]
      exact h1
  | .paren _ e _, v => by rw [ATerm.strict, ATerm.eval, ATerm.numerals]; exact ASum.strict_iff m e v
theorem AProd.strict_iff (m : Ovf) : ∀ (t : AProd) (v : Int), t.strict m = some v ↔ t.eval m = some v ∧ ∀ n ∈ t.numerals, InI64 n.val
  | .term t, v => by rw [AProd.strict, AProd.eval, AProd.numerals]; exact ATerm.strict_iff m t v
  | .mul l _ r, v => by
    rw [AProd.strict, AProd.eval, AProd.numerals]
    exact bin_iff (AProd.strict_iff m l) (ATerm.strict_iff m r)
  | .div l _ r, v => by
    rw [AProd.strict, AProd.eval, AProd.numerals]
    exact bin_iff (AProd.strict_iff m l) (ATerm.strict_iff m r)
theorem ASum.strict_iff (m : Ovf) : ∀ (t : ASum) (v : Int), t.strict m = some v ↔ t.eval m = some v ∧ ∀ n ∈ t.numerals, InI64 n.val
  | .prod t, v => by rw [ASum.strict, ASum.eval, ASum.numerals]; exact AProd.strict_iff m t v
  | .add l _ r, v => by
    rw [ASum.strict, ASum.eval, ASum.numerals]
    exact bin_iff (ASum.strict_iff m l) (AProd.strict_iff m r)
  | .sub l _ r, v => by
    rw [ASum.strict, ASum.eval, ASum.numerals]
    exact bin_iff (ASum.strict_iff m l) (AProd.strict_iff m r)
end

/-- **C47, exactly** (all builds). Evaluating the tree of the generated parser gives `v` exactly if the hand-written parser returns `v` and every
number in the text fits in an `i64`: numbers that do not fit are the only difference on well-formed texts. -/
theorem C47_values_exact (st : BState) (h : Generates arithToks st) (m : Ovf) (text : List Char) (v : Int) :
    (∃ t, Parses st 0 text (.ok t) ∧ valAst m t = some v) ↔
      HandParses m text (.ok v) ∧ ∃ i : AInput, i.text = text ∧ ∀ n ∈ i.sum.numerals, InI64 n.val := by
  constructor
  · rintro ⟨t, hp, hv⟩
    obtain ⟨i, rfl, rfl⟩ := (generated_iff h _ _).1 hp
    rw [AInput.tree_val, ASum.strict_iff] at hv
    exact ⟨(C46_value _ _ _).2 ⟨i, rfl, hv.1⟩, i, rfl, hv.2⟩
  · rintro ⟨hv, i, rfl, hn⟩
    refine ⟨i.tree, (generated_iff h _ _).2 ⟨i, rfl, rfl⟩, ?_⟩
    rw [AInput.tree_val, ASum.strict_iff]
    refine ⟨?_, hn⟩
    have := (handParses_of_text m i).unique hv
    cases ho : i.sum.eval m with
    | none => rw [ho] at this; cases this
    | some x => rw [ho] at this; cases this; rfl

/-- **C47, exactly** (panics, all builds). On a well-formed text evaluating the tree panics exactly if the hand-written parser panics or a number in
the text does not fit in an `i64`. -/
theorem C47_panics_exact (st : BState) (h : Generates arithToks st) (m : Ovf) (i : AInput) :
    (∃ t, Parses st 0 i.text (.ok t) ∧ valAst m t = none) ↔ HandParses m i.text .panic ∨ ∃ n ∈ i.sum.numerals, ¬ InI64 n.val := by
  have hh := handParses_of_text m i
  have ht : ∀ t, Parses st 0 i.text (.ok t) → valAst m t = i.sum.strict m := by
    intro t hp
    have h1 := (generated_iff h _ _).2 ⟨i, rfl, rfl⟩
    have h2 : t = i.tree := by
      have := hp.unique h1
      cases this; rfl
    rw [h2, AInput.tree_val]
  have hex : (∃ t, Parses st 0 i.text (.ok t) ∧ valAst m t = none) ↔ i.sum.strict m = none := by
    constructor
    · rintro ⟨t, hp, hv⟩; rw [← ht t hp]; exact hv
    · exact fun hs => ⟨i.tree, (generated_iff h _ _).2 ⟨i, rfl, rfl⟩, by rw [AInput.tree_val]; exact hs⟩
  rw [hex]
  constructor
  · intro hs
    by_cases hn : ∃ n ∈ i.sum.numerals, ¬ InI64 n.val
    · exact .inr hn
    · left
      cases ho : i.sum.eval m with
      | none => rw [ho] at hh; exact hh
      | some x =>
        have := (ASum.strict_iff m i.sum x).2 ⟨ho, fun n hn' => Classical.byContradiction fun hx => hn ⟨n, hn', hx⟩⟩
        rw [hs] at this; cases this
  · intro hor
    cases hs : i.sum.strict m with
    | none => rfl
    | some x =>
      obtain ⟨h1, h2⟩ := (ASum.strict_iff m i.sum x).1 hs
      rcases hor with hp | ⟨n, hn, hx⟩
      · rw [h1] at hh
        have := hh.unique hp
        cases this
      · exact absurd (h2 n hn) hx

/-- Non-vacuity: the numbers of `exArith` fit, that of `exBig` does not. -/
example : (∀ n ∈ exArith.sum.numerals, InI64 n.val) ∧ ∃ n ∈ exBig.sum.numerals, ¬ InI64 n.val := by
  refine ⟨?_, _, List.mem_cons_self .., ?_⟩
  · decide +kernel
  · decide +kernel

end Chomp
