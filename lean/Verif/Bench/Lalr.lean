import Verif.Bench.Arith

/-!
# Parsers generated by LALRPOP: the lexer

`/repo/chomp-bench/src/{arith,json}/lalr.lalrpop` are grammars for the parser generator LALRPOP.  What LALRPOP makes of a
grammar is modelled as its documentation describes it: the text is cut into tokens, always the longest that matches, between
which white space (the regular expression `\s*`) is skipped; the parser accepts the sequences of tokens derived by the grammar
and computes the value of the derivation by the actions.
-/

namespace Chomp

/-- The class `\s` of regular expressions: the characters with the Unicode property `White_Space`. -/
def isWhite (c : Char) : Bool :=
  (9 ≤ c.toNat && c.toNat ≤ 13) || c.toNat == 0x20 || c.toNat == 0x85 || c.toNat == 0xA0 || c.toNat == 0x1680 ||
  (0x2000 ≤ c.toNat && c.toNat ≤ 0x200A) || c.toNat == 0x2028 || c.toNat == 0x2029 || c.toNat == 0x202F ||
  c.toNat == 0x205F || c.toNat == 0x3000

/-- `lalrpop_util::lexer`, for grammars in which no token starts with white space: `tok` finds the longest token at the
beginning of a non-empty text, and the text behind it.  `none` is the error `InvalidToken`.  Fuel bounds the number of steps. -/
def lalrLex {τ : Type} (tok : List Char → Option (τ × List Char)) : Nat → List Char → Option (List τ)
  | _, [] => some []
  | 0, _ :: _ => none
  | n + 1, c :: s =>
    if isWhite c then lalrLex tok n (s.dropWhile isWhite)
    else match tok (c :: s) with
      | none => none
      | some (t, r) => (lalrLex tok n r).map (t :: ·)

section
variable {τ : Type} {tok : List Char → Option (τ × List Char)}

theorem dropWhile_length_le {α : Type} (p : α → Bool) : ∀ l : List α, (l.dropWhile p).length ≤ l.length
  | [] => Nat.le_refl _
  | a :: l => by
    rw [List.dropWhile_cons]
    split
    · exact Nat.le_succ_of_le (dropWhile_length_le p l)
    · exact Nat.le_refl _

/-- Enough fuel is enough. -/
theorem lalrLex_fuel (ht : ∀ s t r, tok s = some (t, r) → r.length < s.length) :
    ∀ (n m : Nat) (s : List Char), s.length ≤ n → s.length ≤ m → lalrLex tok n s = lalrLex tok m s
  | 0, 0, _, _, _ => rfl
  | 0, _ + 1, s, h, _ => by cases s with | nil => simp [lalrLex] | cons _ _ => simp at h
  | _ + 1, 0, s, _, h => by cases s with | nil => simp [lalrLex] | cons _ _ => simp at h
  | n + 1, m + 1, [], _, _ => by simp [lalrLex]
  | n + 1, m + 1, c :: s, h, h' => by
    simp only [lalrLex]
    simp only [List.length_cons, Nat.add_le_add_iff_right] at h h'
    split
    · have := dropWhile_length_le isWhite s
      exact lalrLex_fuel ht n m _ (Nat.le_trans this h) (Nat.le_trans this h')
    · split
      · rfl
      · rename_i t r he
        have := ht _ _ _ he
        simp only [List.length_cons] at this
        rw [lalrLex_fuel ht n m r (by omega) (by omega)]

/-- The tokens of a text. -/
def lalrTokens (tok : List Char → Option (τ × List Char)) (s : List Char) : Option (List τ) := lalrLex tok s.length s

theorem lalrTokens_nil : lalrTokens tok [] = some [] := by simp [lalrTokens, lalrLex]

theorem lalrTokens_tok (ht : ∀ s t r, tok s = some (t, r) → r.length < s.length) {c : Char} {s r : List Char} {t : τ}
    (hc : isWhite c = false) (h : tok (c :: s) = some (t, r)) :
    lalrTokens tok (c :: s) = (lalrTokens tok r).map (t :: ·) := by
  have := ht _ _ _ h
  simp only [List.length_cons] at this
  simp only [lalrTokens, List.length_cons, lalrLex, hc, h, Bool.false_eq_true, if_false]
  rw [lalrLex_fuel ht s.length r.length r (by omega) (Nat.le_refl _)]

theorem lalrTokens_none {c : Char} {s : List Char} (hc : isWhite c = false) (h : tok (c :: s) = none) :
    lalrTokens tok (c :: s) = none := by
  simp only [lalrTokens, List.length_cons, lalrLex, hc, h, Bool.false_eq_true, if_false]

theorem lalrTokens_drop (ht : ∀ s t r, tok s = some (t, r) → r.length < s.length) :
    ∀ (s : List Char), lalrTokens tok (s.dropWhile isWhite) = lalrTokens tok s
  | [] => rfl
  | c :: s => by
    rw [List.dropWhile_cons]
    by_cases hc : isWhite c = true
    · rw [if_pos hc]
      have hl := dropWhile_length_le isWhite s
      simp only [lalrTokens, List.length_cons, lalrLex, hc, if_true]
      exact lalrLex_fuel ht _ _ _ (Nat.le_refl _) hl
    · rw [if_neg hc]

theorem lalrTokens_white (ht : ∀ s t r, tok s = some (t, r) → r.length < s.length) {c : Char} {s : List Char}
    (hc : isWhite c = true) : lalrTokens tok (c :: s) = lalrTokens tok s := by
  rw [← lalrTokens_drop ht (c :: s), List.dropWhile_cons, if_pos hc, lalrTokens_drop ht]

end

end Chomp
