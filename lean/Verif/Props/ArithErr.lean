import Verif.Bench.ArithErr
import Verif.Props.Text

/-! # C86: the errors of the hand-written arithmetic parser -/

namespace Chomp

attribute [local irreducible] Ovf.fit InI64 divI64

/-- On a text of an expression `parse_expr` reports no error, with whatever fuel. -/
theorem arithParse_no_error (m : Ovf) (i : AInput) (n : Nat) (e : ParseError) : arithParse m n (IW.new i.text) ≠ .err e := by
  intro h
  have h1 : HandParses m i.text (.err e) := ⟨by simp, n, h⟩
  have h2 := handParses_of_text m i
  have := h1.unique h2
  cases ho : i.sum.eval m <;> rw [ho] at this <;> cases this

theorem takeExpr_no_error (m : Ovf) (i : AInput) (n : Nat) (e : TakeError) (w' : IW) :
    takeExpr m n (arithSpaces (IW.new i.text)) ≠ .err e w' := by
  intro h
  refine arithParse_no_error m i n (.take e) ?_
  rw [arithParse, parseWith, h]

theorem advPosN_text (p r : List Char) :
    advPosN LineCol.init p.length (p ++ r) = ⟨specLine (p ++ r) p.length, specCol (p ++ r) p.length⟩ :=
  advPosN_spec _ _ (by simp)

/-- Reading from the start of a text. -/
theorem ReadsTo.place {text a : List Char} {w' : IW} (h : ReadsTo (IW.new text) a w') :
    text = a ++ w'.rem ∧ w'.pos = ⟨specLine text a.length, specCol text a.length⟩ := by
  have h1 := h.1
  rw [IW.rem_new] at h1
  refine ⟨h1, ?_⟩
  rw [h.2, IW.rem_new, h1]
  exact advPosN_text a w'.rem

/-- **C86** (unexpected characters). If `parse_expr` reports an unexpected character `c` and a list of expected ones, then the
text is `p ++ c :: r` with `p` ending at the reported position, `c` is not in the list, and the characters that can follow `p`
in a text of an expression are exactly those of the list and the space. -/
theorem C86_arith_expected (m : Ovf) (text : List Char) (pos : LineCol) (c : Char) (exp : List Char)
    (h : HandParses m text (.err (.take (.badBranch pos c exp)))) :
    ∃ p r, text = p ++ c :: r ∧ pos = ⟨specLine text p.length, specCol text p.length⟩ ∧ c ∉ exp ∧ c ≠ ' ' ∧
      ∀ d, (∃ (i : AInput) (s : List Char), i.text = p ++ d :: s) ↔ d ∈ exp ∨ d = ' ' := by
  obtain ⟨-, n, h⟩ := h
  rw [arithParse, parseWith] at h
  obtain ⟨k, hk, hk2⟩ := ReadsTo.spaces (IW.new text)
  cases hx : takeExpr m n (arithSpaces (IW.new text)) with
  | panic => rw [hx] at h; cases h
  | oof => rw [hx] at h; cases h
  | ok v w => rw [hx] at h; dsimp only at h; split at h <;> cases h
  | err e w =>
    rw [hx] at h
    cases h
    obtain ⟨p, r, h1, h2, h3, h4, h4', -, hsp, h5, h6⟩ := (arith_unexp m n).2.2.2.2 _ _ _ _ _ hx
    have ht : text = spaces k ++ p ++ c :: r := by
      have := hk.1
      rw [IW.rem_new, h1] at this
      rw [this, List.append_assoc]
    have hc : c ≠ ' ' := by
      intro hs
      rw [h1, h4 hs, hs] at hk2
      exact hk2 rfl
    refine ⟨spaces k ++ p, r, ht, ?_, h3, hc, fun d => ⟨?_, ?_⟩⟩
    · rw [ht, ← advPosN_text, ← ht, List.length_append, advPosN_add, h2, hk.2, IW.pos_new, IW.rem_new]
      congr 1
      rw [h1, ht, List.append_assoc, List.drop_left]
    · rintro ⟨i, s, hi⟩
      refine Classical.byContradiction fun hd => ?_
      have hd := not_or.1 hd
      have hrem : (arithSpaces (IW.new i.text)).rem = p ++ d :: s := by
        refine arithSpaces_spaces (n := k) (by rw [IW.rem_new, hi, List.append_assoc]) ?_
        cases p with
        | nil => simpa using hd.2
        | cons x l => simpa using h4'
      obtain ⟨e', w2, h7⟩ := h6 _ _ hrem (by intro y hy; cases hy; exact hd)
      exact takeExpr_no_error m i n e' w2 h7
    · rintro (hd | rfl)
      · obtain ⟨s, t, hs⟩ := h5 d hd
        exact ⟨⟨k, t⟩, s, by rw [AInput.text, hs, List.append_assoc]⟩
      · by_cases hp : p = []
        · subst hp
          exact ⟨⟨k + 1, .prod (.term (.pos ⟨0, []⟩ 0))⟩, _, by
            simp only [AInput.text, spaces_succ', List.append_assoc, List.append_nil, List.cons_append, List.nil_append]; rfl⟩
        · obtain ⟨s, t, hs⟩ := hsp hp
          exact ⟨⟨k, t⟩, s, by rw [AInput.text, hs, List.append_assoc]⟩

/-- **C86** (the input continues). If `parse_expr` reports that the input continues, everything before the reported position is the text
of an expression, with a value, and no text of an expression continues it with the next character. -/
theorem C86_arith_input_continues (m : Ovf) (text : List Char) (pos : LineCol) (h : HandParses m text (.err (.inputContinues pos))) :
    ∃ (i : AInput) (c : Char) (r : List Char), text = i.text ++ c :: r ∧ (i.sum.eval m).isSome ∧
      pos = ⟨specLine text i.text.length, specCol text i.text.length⟩ ∧ ∀ (j : AInput) (s : List Char), j.text ≠ i.text ++ c :: s := by
  obtain ⟨-, n, h⟩ := h
  rw [arithParse, parseWith] at h
  obtain ⟨k, hk, hk2⟩ := ReadsTo.spaces (IW.new text)
  cases hx : takeExpr m n (arithSpaces (IW.new text)) with
  | panic => rw [hx] at h; cases h
  | oof => rw [hx] at h; cases h
  | err e' w => rw [hx] at h; cases h
  | ok v w =>
    rw [hx] at h
    obtain ⟨t, ht, htv⟩ := (arith_sound m n).2.2.2.2 _ _ _ hx
    obtain ⟨ha, hl⟩ := ReadsTo.ok_of_loc (arith_loc m n).2.2.2.2 hx ht
    dsimp only at h
    rw [IW.peek_eq] at h
    cases hh : w.rem with
    | nil => rw [hh] at h; cases h
    | cons c r =>
      rw [hh] at h
      cases h
      obtain ⟨h1, h2⟩ := (hk.trans ha).place
      refine ⟨⟨k, t⟩, c, r, by rw [← hh]; exact h1, by rw [htv]; rfl, by rw [IW.peek_pos]; exact h2, fun j s hj => ?_⟩
      have hrem : (arithSpaces (IW.new j.text)).rem = t.text ++ c :: s :=
        arithSpaces_spaces (n := k) (by rw [IW.rem_new, hj, AInput.text, List.append_assoc]) (head_append_ne t.text_cons)
      obtain ⟨w2, h3, h4⟩ := hl _ (c :: s) hrem (by rw [hh]; rfl)
      refine arithParse_no_error m j n (.inputContinues w2.peek.2.pos) ?_
      rw [arithParse, parseWith, h3]
      dsimp only
      rw [IW.peek_eq, h4]
      rfl

/-- **C86** (missing parentheses and ends). An unexpected string is a single character in the place of a closing parenthesis, and no
text of an expression starts with the same characters up to and including it; the end of the input is reported only there. -/
theorem C86_arith_missing (m : Ovf) (text : List Char) (e : TakeError) (h : HandParses m text (.err (.take e)))
    (hb : ∀ pos c exp, e ≠ .badBranch pos c exp) :
    ∃ p r, text = p ++ r ∧ ((r = [] ∧ e = .endOfStream ⟨specLine text p.length, specCol text p.length⟩) ∨
      ∃ c s, r = c :: s ∧ c ≠ ')' ∧ e = .badString ⟨specLine text p.length, specCol text p.length⟩ [c] [')']) ∧
      ∀ (i : AInput) (s : List Char), i.text = p ++ s → s.head? ≠ r.head? := by
  obtain ⟨-, n, h⟩ := h
  rw [arithParse, parseWith] at h
  obtain ⟨k, hk, hk2⟩ := ReadsTo.spaces (IW.new text)
  have hl := (arith_loc m n).2.2.2.2 (arithSpaces (IW.new text)) trivial
  cases hx : takeExpr m n (arithSpaces (IW.new text)) with
  | panic => rw [hx] at h; cases h
  | oof => rw [hx] at h; cases h
  | ok v w => rw [hx] at h; dsimp only at h; split at h <;> cases h
  | err e' w =>
    rw [hx] at h hl
    cases h
    obtain ⟨he, a, ha, hl⟩ := hl
    obtain ⟨h1, h2⟩ := (hk.trans ha).place
    refine ⟨_, _, h1, ?_, fun i s hi hs => ?_⟩
    · rw [← h2]
      cases e with
      | badBranch pos c exp => exact absurd rfl (hb pos c exp)
      | badString pos got exp =>
        obtain ⟨rfl, rfl, c, r, h5, rfl, h7⟩ := he
        exact .inr ⟨c, r, h5, h7, rfl⟩
      | endOfStream pos => exact .inl ⟨he.2, by rw [he.1]⟩
    · have hrem : (arithSpaces (IW.new i.text)).rem = a ++ s := by
        refine arithSpaces_spaces (n := k) (by rw [IW.rem_new, hi, List.append_assoc]) ?_
        rw [head_append_congr hs, ← ha.1]
        exact hk2
      obtain ⟨e2, w2, h3, -⟩ := hl _ s hrem hs
      exact takeExpr_no_error m i n e2 w2 h3

/-- **C86** (places of errors). If `parse_expr` reports an error, the text is `p ++ r` with `p` ending at the reported position, and no
text of an expression that starts with `p` goes on as `r` does: with the same character, or ending if `r` is empty. -/
theorem C86_arith_error_place (m : Ovf) (text : List Char) (e : ParseError) (h : HandParses m text (.err e)) :
    ∃ p r, text = p ++ r ∧ e.position = ⟨specLine text p.length, specCol text p.length⟩ ∧
      ∀ (i : AInput) (s : List Char), i.text = p ++ s → s.head? ≠ r.head? := by
  cases e with
  | inputContinues pos =>
    obtain ⟨i, c, r, h1, -, h2, h3⟩ := C86_arith_input_continues m text pos h
    refine ⟨i.text, _, h1, h2, fun j s hj hs => ?_⟩
    cases s with
    | nil => cases hs
    | cons d l => cases hs; exact h3 j l hj
  | take e =>
    by_cases hb : ∃ pos c exp, e = .badBranch pos c exp
    · obtain ⟨pos, c, exp, rfl⟩ := hb
      obtain ⟨p, r, h1, h2, h3, h4, h5⟩ := C86_arith_expected m text pos c exp h
      refine ⟨p, _, h1, h2, fun i s hi hs => ?_⟩
      cases s with
      | nil => cases hs
      | cons d l =>
        cases hs
        rcases (h5 c).1 ⟨i, l, hi⟩ with h | h
        · exact h3 h
        · exact h4 h
    · obtain ⟨p, r, h1, h2, h3⟩ := C86_arith_missing m text e h fun pos c exp he => hb ⟨pos, c, exp, he⟩
      refine ⟨p, r, h1, ?_, h3⟩
      rcases h2 with ⟨-, rfl⟩ | ⟨c, s, -, -, rfl⟩ <;> rfl

/-- **C86** (late errors). The error reported need not be the first one: no expression starts with `((1+)`, but if what follows is not a
second parenthesis, that is what `parse_expr` complains about. -/
theorem C86_arith_late_error (m : Ovf) : HandParses m "((1+)*)".toList (.err (.take (.badString ⟨1, 5⟩ ['*'] [')']))) ∧
    HandParses m "((1+))".toList (.err (.take (.badBranch ⟨1, 4⟩ ')' ['-', '(', '0', '1', '2', '3', '4', '5', '6', '7', '8', '9']))) ∧
    ∀ (i : AInput) (s : List Char), i.text ≠ "((1+)".toList ++ s := by
  have h2 : HandParses m "((1+))".toList (.err (.take (.badBranch ⟨1, 4⟩ ')' ['-', '(', '0', '1', '2', '3', '4', '5', '6', '7', '8', '9']))) :=
    ⟨by simp, 40, by cases m <;> decide +kernel⟩
  refine ⟨⟨by simp, 40, by cases m <;> decide +kernel⟩, h2, fun i s hi => ?_⟩
  obtain ⟨p, r, h3, h4, h5, h6, h7⟩ := C86_arith_expected _ _ _ _ _ h2
  have hp : p = "((1+".toList := by
    have hl : p.length = 4 := by
      have hle : p.length < 6 := by
        have := congrArg List.length h3
        simp only [List.length_append, List.length_cons] at this
        have h0 : "((1+))".toList.length = 6 := by decide +kernel
        omega
      have hall : ∀ n < 6, (⟨1, 4⟩ : LineCol) = ⟨specLine "((1+))".toList n, specCol "((1+))".toList n⟩ → n = 4 := by decide +kernel
      exact hall _ hle h4
    have := congrArg (List.take 4) h3
    rw [← hl, List.take_left, hl] at this
    rw [← this]; rfl
  subst hp
  rcases (h7 ')').1 ⟨i, s, hi⟩ with h | h
  · exact h5 h
  · cases h

example : HandParses .checked "2 * x".toList (.err (.take (.badBranch ⟨1, 4⟩ 'x' ('-' :: '(' :: digitChars)))) :=
  ⟨by simp, 40, by decide +kernel⟩
example : HandParses .checked "- x".toList (.err (.take (.badBranch ⟨1, 2⟩ 'x' digitChars))) := ⟨by simp, 40, by decide +kernel⟩
example : HandParses .checked "(2 3".toList (.err (.take (.badString ⟨1, 3⟩ ['3'] [')']))) := ⟨by simp, 40, by decide +kernel⟩
example : HandParses .checked "(2".toList (.err (.take (.endOfStream ⟨1, 2⟩))) := ⟨by simp, 40, by decide +kernel⟩
example : HandParses .checked "1 2".toList (.err (.inputContinues ⟨1, 2⟩)) := ⟨by simp, 40, by decide +kernel⟩

end Chomp
