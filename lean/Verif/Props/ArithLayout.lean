import Verif.Props.ArithLalr

/-!
# C92: spaces in arithmetic expressions

Spaces can be inserted into and removed from an arithmetic expression anywhere except between two digits, and none of the three parsers of
the benchmark treats the text differently.
-/

namespace Chomp

/-! ## Specification -/

/-- A text is split at this place, and not between two digits. -/
def NotInNumber (x y : List Char) : Prop :=
  ¬ ∃ x' c d y', x = x' ++ [c] ∧ y = d :: y' ∧ c.isDigit = true ∧ d.isDigit = true

/-! ## Tokens -/

theorem NotInNumber.tail {c : Char} {x y : List Char} (h : NotInNumber (c :: x) y) : NotInNumber x y := by
  rintro ⟨x', a, d, y', rfl, rfl, h1, h2⟩
  exact h ⟨c :: x', a, d, y', rfl, rfl, h1, h2⟩

theorem NotInNumber.drop {x1 x y : List Char} (h : NotInNumber (x1 ++ x) y) : NotInNumber x y := by
  induction x1 with
  | nil => exact h
  | cons c l ih => exact ih h.tail

theorem NotInNumber.noDigit {c : Char} {d y : List Char} (h : NotInNumber (c :: d) y) (hc : c.isDigit = true)
    (hd : ∀ x ∈ d, x.isDigit = true) : NoDigitAt y := by
  cases y with
  | nil => trivial
  | cons e y =>
    cases he : e.isDigit with
    | false => exact he
    | true =>
      exfalso
      have hl : c :: d = (c :: d).dropLast ++ [(c :: d).getLast (by simp)] := (List.dropLast_concat_getLast _).symm
      refine h ⟨_, _, e, y, hl, rfl, ?_, he⟩
      have hm : (c :: d).getLast (by simp) ∈ c :: d := List.getLast_mem _
      rcases List.mem_cons.1 hm with hm | hm
      · rw [hm]; exact hc
      · exact hd _ hm

/-- The tokens of a text that is split outside of numbers. -/
theorem aToks_append : ∀ (n : Nat) (x y : List Char), x.length ≤ n → NotInNumber x y →
    aToks (x ++ y) = (aToks x).bind fun a => (aToks y).map (a ++ ·)
  | _, [], y, _, _ => by rw [aToks_nil]; simp
  | 0, c :: x, y, hn, _ => by simp at hn
  | n + 1, c :: x, y, hn, h => by
    simp only [List.length_cons, Nat.add_le_add_iff_right] at hn
    have ih := aToks_append n x y hn h.tail
    cases hw : isWhite c with
    | true =>
      rw [aToks_white hw, ← ih]
      exact aToks_white hw
    | false =>
      cases hd : c.isDigit with
      | true =>
        have hsplit : x = x.takeWhile Char.isDigit ++ x.dropWhile Char.isDigit := (List.takeWhile_append_dropWhile).symm
        have ht := takeWhile_all Char.isDigit x
        have hlen : (x.dropWhile Char.isDigit).length ≤ n := Nat.le_trans (dropWhile_length_le _ _) hn
        have hnd : NotInNumber (x.dropWhile Char.isDigit) y := by
          have := h.tail
          rw [hsplit] at this
          exact this.drop
        have ih := aToks_append n (x.dropWhile Char.isDigit) y hlen hnd
        have hy : NoDigitAt (x.dropWhile Char.isDigit ++ y) ∧ NoDigitAt (x.dropWhile Char.isDigit) := by
          cases hx : x.dropWhile Char.isDigit with
          | nil =>
            rw [hx, List.append_nil] at hsplit
            rw [hsplit] at h
            exact ⟨h.noDigit hd ht, trivial⟩
          | cons e r =>
            have : e.isDigit = false := by
              have := List.head_dropWhile_not Char.isDigit (l := x) (by simp [hx])
              simpa [hx] using this
            exact ⟨this, this⟩
        have e1 := aToks_num hd ht hy.1
        have e2 := aToks_num hd ht hy.2
        rw [List.cons_append, ← hsplit] at e2
        have hx1 : (c :: x) ++ y = c :: (x.takeWhile Char.isDigit ++ (x.dropWhile Char.isDigit ++ y)) := by
          rw [← List.append_assoc, ← hsplit]
          rfl
        rw [hx1]
        refine Eq.trans e1 ?_
        rw [ih, show aToks (c :: x) = _ from e2]
        cases aToks (x.dropWhile Char.isDigit) <;> cases aToks y <;> rfl
      | false =>
        have key : (∃ t, ∀ s, arithTok (c :: s) = some (t, s)) ∨ ∀ s, arithTok (c :: s) = none := by
          simp only [arithTok, hd, Bool.false_eq_true, if_false]
          repeat' split
          all_goals first | exact .inl ⟨_, fun _ => rfl⟩ | exact .inr fun _ => rfl
        rcases key with ⟨t, ht⟩ | ht
        · have e1 : aToks (c :: (x ++ y)) = _ := lalrTokens_tok arithTok_shorter hw (ht _)
          have e2 : aToks (c :: x) = _ := lalrTokens_tok arithTok_shorter hw (ht _)
          rw [List.cons_append, e1, e2]
          show (aToks (x ++ y)).map _ = ((aToks x).map _).bind _
          rw [ih]
          cases aToks x <;> cases aToks y <;> rfl
        · have e1 : aToks (c :: (x ++ y)) = _ := lalrTokens_none hw (ht _)
          have e2 : aToks (c :: x) = _ := lalrTokens_none hw (ht _)
          rw [List.cons_append, e1, e2]
          rfl

theorem notInNumber_spaces (k : Nat) {x y : List Char} (h : NotInNumber x y) : NotInNumber x (spaces k ++ y) := by
  cases k with
  | zero => exact h
  | succ k =>
    rintro ⟨x', c, d, y', rfl, h1, h2, h3⟩
    cases h1
    exact absurd h3 (by decide)

theorem aToks_insert (k : Nat) {x y : List Char} (h : NotInNumber x y) : aToks (x ++ (spaces k ++ y)) = aToks (x ++ y) := by
  rw [aToks_append _ x _ (Nat.le_refl _) (notInNumber_spaces k h), aToks_append _ x _ (Nat.le_refl _) h, aToks_spaces]

/-! ## Two numbers in a row -/

/-- No two numbers in a row; the result is whether the last token is a number. -/
def numsApart : Bool → List LTok → Option Bool
  | b, [] => some b
  | true, .num _ :: _ => none
  | false, .num _ :: l => numsApart true l
  | _, .plus :: l => numsApart false l
  | _, .minus :: l => numsApart false l
  | _, .star :: l => numsApart false l
  | _, .slash :: l => numsApart false l
  | _, .lpar :: l => numsApart false l
  | _, .rpar :: l => numsApart false l

theorem numsApart_append : ∀ (a : List LTok) (b : Bool) (l : List LTok), numsApart b (a ++ l) = (numsApart b a).bind fun b => numsApart b l
  | [], b, l => by cases b <;> rfl
  | t :: a, b, l => by
    cases t <;> cases b <;> first | rfl | exact numsApart_append a _ l

mutual
theorem LTerm.apart : ∀ t : LTerm, ∃ b, numsApart false t.toks = some b
  | .number s => ⟨true, rfl⟩
  | .neg s => ⟨true, rfl⟩
  | .parens e => by
    obtain ⟨b, hb⟩ := e.apart
    refine ⟨false, ?_⟩
    show numsApart false (e.toks ++ [.rpar]) = _
    rw [numsApart_append, hb]
    cases b <;> rfl
theorem LProd.apart : ∀ t : LProd, ∃ b, numsApart false t.toks = some b
  | .mk t v => by
    obtain ⟨b, hb⟩ := t.apart
    obtain ⟨b', hb'⟩ := v.apart b
    exact ⟨b', by rw [LProd.toks, numsApart_append, hb]; exact hb'⟩
theorem LMuls.apart : ∀ (v : LMuls) (b : Bool), ∃ b', numsApart b v.toks = some b'
  | .nil, b => ⟨b, by cases b <;> rfl⟩
  | .cons op t v, b => by
    obtain ⟨b1, hb⟩ := t.apart
    obtain ⟨b2, hb'⟩ := v.apart b1
    refine ⟨b2, ?_⟩
    have : numsApart false (t.toks ++ v.toks) = some b2 := by rw [numsApart_append, hb]; exact hb'
    rw [LMuls.toks]
    cases op <;> cases b <;> exact this
theorem LExpr.apart : ∀ t : LExpr, ∃ b, numsApart false t.toks = some b
  | .mk t v => by
    obtain ⟨b, hb⟩ := t.apart
    obtain ⟨b', hb'⟩ := v.apart b
    exact ⟨b', by rw [LExpr.toks, numsApart_append, hb]; exact hb'⟩
theorem LAdds.apart : ∀ (v : LAdds) (b : Bool), ∃ b', numsApart b v.toks = some b'
  | .nil, b => ⟨b, by cases b <;> rfl⟩
  | .cons op t v, b => by
    obtain ⟨b1, hb⟩ := t.apart
    obtain ⟨b2, hb'⟩ := v.apart b1
    refine ⟨b2, ?_⟩
    have : numsApart false (t.toks ++ v.toks) = some b2 := by rw [numsApart_append, hb]; exact hb'
    rw [LAdds.toks]
    cases op <;> cases b <;> exact this
end

/-- A text is a beginning that does not end with a digit and digits. -/
theorem digits_suffix : ∀ (n : Nat) (x : List Char), x.length ≤ n → ∃ x1 d, x = x1 ++ d ∧ (∀ c ∈ d, c.isDigit = true) ∧
    ∀ x' c, x1 = x' ++ [c] → c.isDigit = false
  | 0, x, h => by
    cases x with
    | nil => exact ⟨[], [], rfl, by simp, by intro x' c h; cases x' <;> cases h⟩
    | cons => simp at h
  | n + 1, x, h => by
    rcases List.eq_nil_or_concat x with rfl | ⟨l, c, rfl⟩
    · exact ⟨[], [], rfl, by simp, by intro x' c h; cases x' <;> cases h⟩
    · cases hc : c.isDigit with
      | false =>
        refine ⟨l ++ [c], [], by simp, by simp, fun x' c' he => ?_⟩
        have := (List.append_inj' he rfl).2
        cases this
        exact hc
      | true =>
        obtain ⟨x1, d, rfl, h1, h2⟩ := digits_suffix n l (by simp at h; omega)
        refine ⟨x1, d ++ [c], by simp, fun a ha => ?_, h2⟩
        rcases List.mem_append.1 ha with ha | ha
        · exact h1 a ha
        · simp at ha; rw [ha]; exact hc

theorem aToks_last {x : List Char} {c : Char} (hc : c.isDigit = true) {ts : List LTok} (h : aToks (x ++ [c]) = some ts) :
    ∃ a s, ts = a ++ [.num s] := by
  obtain ⟨x1, d, hx, h1, h2⟩ := digits_suffix _ (x ++ [c]) (Nat.le_refl _)
  have hd : d ≠ [] := by
    rintro rfl
    rw [List.append_nil] at hx
    have := h2 x c hx.symm
    rw [hc] at this
    cases this
  have hn : NotInNumber x1 d := by
    rintro ⟨x', a, e, y', rfl, rfl, k1, k2⟩
    rw [h2 _ _ rfl] at k1
    cases k1
  rw [hx, aToks_append _ x1 d (Nat.le_refl _) hn] at h
  cases d with
  | nil => exact (hd rfl).elim
  | cons e d =>
    have e1 := aToks_num (h1 e (by simp)) (fun a ha => h1 a (List.mem_cons_of_mem _ ha)) (s := []) trivial
    rw [List.append_nil, aToks_nil] at e1
    rw [e1] at h
    cases ha : aToks x1 with
    | none => rw [ha] at h; cases h
    | some a =>
      rw [ha] at h
      cases h
      exact ⟨a, _, rfl⟩

theorem aToks_first {y : List Char} {c : Char} (hc : c.isDigit = true) {ts : List LTok} (h : aToks (c :: y) = some ts) :
    ∃ s a, ts = .num s :: a := by
  have e1 := lalrTokens_tok arithTok_shorter (digit_not_white hc) (c := c) (s := y)
    (t := .num (c :: y.takeWhile Char.isDigit)) (r := y.dropWhile Char.isDigit) (by simp [arithTok, hc])
  rw [show aToks (c :: y) = _ from e1] at h
  cases ha : lalrTokens arithTok (y.dropWhile Char.isDigit) with
  | none => rw [ha] at h; cases h
  | some a =>
    rw [ha] at h
    cases h
    exact ⟨_, _, rfl⟩

theorem lalrArith_split (m : Ovf) (x y : List Char) (c d : Char) (k : Nat) (hc : c.isDigit = true) (hd : d.isDigit = true) (r : Option Int) :
    ¬ LalrArith m (x ++ (c :: ' ' :: (spaces k ++ d :: y))) r := by
  rintro ⟨e, h, -⟩
  have hn : NotInNumber (x ++ [c]) (' ' :: (spaces k ++ d :: y)) := by
    rintro ⟨x', a, b, y', -, k1, -, k3⟩
    cases k1
    exact absurd k3 (by decide)
  have hx : x ++ (c :: ' ' :: (spaces k ++ d :: y)) = (x ++ [c]) ++ (' ' :: (spaces k ++ d :: y)) := by simp
  have h : aToks (x ++ (c :: ' ' :: (spaces k ++ d :: y))) = some e.toks := h
  rw [hx, aToks_append _ _ _ (Nat.le_refl _) hn, aToks_white (c := ' ') (by decide), aToks_spaces] at h
  cases h1 : aToks (x ++ [c]) with
  | none => rw [h1] at h; cases h
  | some ts =>
    cases h2 : aToks (d :: y) with
    | none => rw [h1, h2] at h; cases h
    | some ts' =>
      rw [h1, h2] at h
      obtain ⟨a, s, rfl⟩ := aToks_last hc h1
      obtain ⟨s', a', rfl⟩ := aToks_first hd h2
      obtain ⟨b, hb⟩ := e.apart
      have he : e.toks = (a ++ [.num s]) ++ .num s' :: a' := by
        injection h with h
        exact h.symm
      rw [he, numsApart_append, numsApart_append] at hb
      cases h3 : numsApart false a with
      | none => rw [h3] at hb; cases hb
      | some b1 =>
        rw [h3] at hb
        cases b1 <;> cases hb

theorem lalrArith_insert (m : Ovf) (x y : List Char) (k : Nat) (h : NotInNumber x y) (r : Option Int) :
    LalrArith m (x ++ (spaces k ++ y)) r ↔ LalrArith m (x ++ y) r := by
  have := aToks_insert k h
  unfold aToks at this
  unfold LalrArith
  rw [this]

/-- All white space is spaces. -/
theorem blanks_eq {s : List Char} (h : ∀ c ∈ s, c ∈ whiteSpace → c = ' ') : blanks s = s := by
  induction s with
  | nil => rfl
  | cons c s ih =>
    have hs := ih fun d hd => h d (List.mem_cons_of_mem _ hd)
    show (if c ∈ whiteSpace then ' ' else c) :: blanks s = _
    rw [hs]
    split
    · rename_i hc; rw [h c (by simp) hc]
    · rfl

/-- No white space but spaces. -/
def OnlySpaces (s : List Char) : Prop := ∀ c ∈ s, c ∈ whiteSpace → c = ' '

theorem OnlySpaces.append {a b : List Char} (h1 : OnlySpaces a) (h2 : OnlySpaces b) : OnlySpaces (a ++ b) := by
  intro c hc
  rcases List.mem_append.1 hc with hc | hc
  · exact h1 c hc
  · exact h2 c hc

theorem OnlySpaces.cons {c : Char} {b : List Char} (h1 : c ∈ whiteSpace → c = ' ') (h2 : OnlySpaces b) : OnlySpaces (c :: b) := by
  intro d hd
  rcases List.mem_cons.1 hd with rfl | hd
  · exact h1
  · exact h2 d hd

theorem onlySpaces_spaces (n : Nat) : OnlySpaces (spaces n) := fun _ hc _ => List.eq_of_mem_replicate hc

theorem Numeral.onlySpaces (n : Numeral) : OnlySpaces n.text := by
  intro c hc
  obtain ⟨d, -, rfl⟩ := List.mem_map.1 hc
  exact (by decide : ∀ d : Fin 10, digitChar d ∈ whiteSpace → digitChar d = ' ') d

mutual
theorem ATerm.onlySpaces : ∀ t : ATerm, OnlySpaces t.text
  | .pos n _ => by
    simp only [ATerm.text]
    exact n.onlySpaces.append (onlySpaces_spaces _)
  | .neg _ n _ => by
    simp only [ATerm.text]
    exact ((OnlySpaces.cons (by decide) (onlySpaces_spaces _)).append n.onlySpaces).append (onlySpaces_spaces _)
  | .paren _ e _ => by
    simp only [ATerm.text]
    exact ((OnlySpaces.cons (by decide) (onlySpaces_spaces _)).append e.onlySpaces).append (.cons (by decide) (onlySpaces_spaces _))
theorem AProd.onlySpaces : ∀ t : AProd, OnlySpaces t.text
  | .term t => by simp only [AProd.text]; exact t.onlySpaces
  | .mul l _ r => by
    simp only [AProd.text]
    exact (l.onlySpaces.append (.cons (by decide) (onlySpaces_spaces _))).append r.onlySpaces
  | .div l _ r => by
    simp only [AProd.text]
    exact (l.onlySpaces.append (.cons (by decide) (onlySpaces_spaces _))).append r.onlySpaces
theorem ASum.onlySpaces : ∀ t : ASum, OnlySpaces t.text
  | .prod p => by simp only [ASum.text]; exact p.onlySpaces
  | .add l _ r => by
    simp only [ASum.text]
    exact (l.onlySpaces.append (.cons (by decide) (onlySpaces_spaces _))).append r.onlySpaces
  | .sub l _ r => by
    simp only [ASum.text]
    exact (l.onlySpaces.append (.cons (by decide) (onlySpaces_spaces _))).append r.onlySpaces
end

theorem AInput.onlySpaces (i : AInput) : OnlySpaces i.text := (onlySpaces_spaces _).append i.sum.onlySpaces

theorem onlySpaces_insert {x y : List Char} (k : Nat) : OnlySpaces (x ++ (spaces k ++ y)) ↔ OnlySpaces (x ++ y) := by
  constructor <;> intro h c hc
  · refine h c ?_
    rcases List.mem_append.1 hc with hc | hc
    · exact List.mem_append_left _ hc
    · exact List.mem_append_right _ (List.mem_append_right _ hc)
  · intro hw
    rcases List.mem_append.1 hc with hc | hc
    · exact h c (List.mem_append_left _ hc) hw
    · rcases List.mem_append.1 hc with hc | hc
      · exact List.eq_of_mem_replicate hc
      · exact h c (List.mem_append_right _ hc) hw

/-! ## Statements -/

/-- **C92** (LALRPOP's parser). Spaces can be inserted and removed everywhere except between two digits. -/
theorem C92_lalr (m : Ovf) (x y : List Char) (k : Nat) (h : NotInNumber x y) (r : Option Int) :
    LalrArith m (x ++ (spaces k ++ y)) r ↔ LalrArith m (x ++ y) r := lalrArith_insert m x y k h r

/-- **C92** (white space). A text that the generated or the hand-written parser accepts has no white space but spaces: tabs and line
breaks are allowed by LALRPOP's lexer only. -/
theorem C92_only_spaces {st : BState} (hg : Generates arithToks st) (text : List Char) :
    (∀ t, Parses st 0 text (.ok t) → ∀ c ∈ text, c ∈ whiteSpace → c = ' ') ∧
    ∀ m v, HandParses m text (.ok v) → ∀ c ∈ text, c ∈ whiteSpace → c = ' ' := by
  refine ⟨fun t ht => ?_, fun m v hv => ?_⟩
  · obtain ⟨i, rfl, -⟩ := (generated_iff hg _ _).1 ht
    exact i.onlySpaces
  · obtain ⟨i, rfl, -⟩ := (C46_value _ _ _).1 hv
    exact i.onlySpaces

/-- **C92** (the generated parser). Spaces can be inserted and removed everywhere except between two digits: both texts are accepted or
neither, and with the same value, or the same panic. -/
theorem C92_generated {st : BState} (hg : Generates arithToks st) (m : Ovf) (x y : List Char) (k : Nat) (h : NotInNumber x y)
    (r : Option Int) :
    (∃ t, Parses st 0 (x ++ (spaces k ++ y)) (.ok t) ∧ valAst m t = r) ↔ ∃ t, Parses st 0 (x ++ y) (.ok t) ∧ valAst m t = r := by
  by_cases hs : OnlySpaces (x ++ y)
  · have h1 := C61_agrees_with_generated st hg m (x ++ (spaces k ++ y)) r
    have h2 := C61_agrees_with_generated st hg m (x ++ y) r
    rw [blanks_eq hs] at h2
    rw [blanks_eq ((onlySpaces_insert k).2 hs)] at h1
    rw [← h1, ← h2]
    exact lalrArith_insert m x y k h r
  · constructor
    · rintro ⟨t, ht, -⟩
      exact absurd ((onlySpaces_insert k).1 ((C92_only_spaces hg _).1 t ht)) hs
    · rintro ⟨t, ht, -⟩
      exact absurd ((C92_only_spaces hg _).1 t ht) hs

/-- **C92** (the hand-written parser). The same, in builds that check for overflow. -/
theorem C92_hand (x y : List Char) (k : Nat) (h : NotInNumber x y) (v : Int) :
    HandParses .checked (x ++ (spaces k ++ y)) (.ok v) ↔ HandParses .checked (x ++ y) (.ok v) := by
  by_cases hs : OnlySpaces (x ++ y)
  · have h1 := (C61_agrees_with_hand (x ++ (spaces k ++ y)) v).1
    have h2 := (C61_agrees_with_hand (x ++ y) v).1
    rw [blanks_eq hs] at h2
    rw [blanks_eq ((onlySpaces_insert k).2 hs)] at h1
    rw [← h1, ← h2]
    exact lalrArith_insert .checked x y k h _
  · constructor
    · intro hv
      obtain ⟨i, hi, -⟩ := (C46_value _ _ _).1 hv
      exact absurd ((onlySpaces_insert k).1 (hi ▸ i.onlySpaces)) hs
    · intro hv
      obtain ⟨i, hi, -⟩ := (C46_value _ _ _).1 hv
      exact absurd (hi ▸ i.onlySpaces) hs

/-- **C92** (between two digits). With a space between two digits no text is an expression: none of the parsers returns a value. -/
theorem C92_between_digits {st : BState} (hg : Generates arithToks st) (x y : List Char) (c d : Char) (k : Nat) (hc : c.isDigit = true)
    (hd : d.isDigit = true) :
    (∀ m r, ¬ LalrArith m (x ++ (c :: ' ' :: (spaces k ++ d :: y))) r) ∧
    (¬ ∃ t, Parses st 0 (x ++ (c :: ' ' :: (spaces k ++ d :: y))) (.ok t)) ∧
    ∀ m v, ¬ HandParses m (x ++ (c :: ' ' :: (spaces k ++ d :: y))) (.ok v) := by
  have h1 : ∀ m r, ¬ LalrArith m (x ++ (c :: ' ' :: (spaces k ++ d :: y))) r := fun m r => lalrArith_split m x y c d k hc hd r
  have h2 : ¬ ∃ i : AInput, i.text = x ++ (c :: ' ' :: (spaces k ++ d :: y)) := by
    rintro ⟨i, hi⟩
    refine h1 .checked (i.sum.strict .checked) ((C61_value _ _ _).2 ⟨i, ?_, rfl⟩)
    rw [← hi]
    exact (blanks_eq i.onlySpaces).symm
  refine ⟨h1, ?_, ?_⟩
  · rintro ⟨t, ht⟩
    obtain ⟨i, hi, -⟩ := (generated_iff hg _ _).1 ht
    exact h2 ⟨i, hi⟩
  · intro m v hv
    obtain ⟨i, hi, -⟩ := (C46_value _ _ _).1 hv
    exact h2 ⟨i, hi⟩

/-! ## Instances -/

example : NotInNumber ['1', '2'] ['+', '3'] := by
  rintro ⟨x', c, d, y', -, h, -, hd⟩
  cases h
  exact absurd hd (by decide)

/-- The hypothesis fails between two digits only. -/
example : ¬ NotInNumber ['1'] ['2', '+', '3'] := fun h => h ⟨[], '1', '2', ['+', '3'], rfl, rfl, by decide, by decide⟩

/-- `12 +3` and `12+3` have the value 15. -/
example : HandParses .checked "12  +3".toList (.ok 15) ∧ HandParses .checked "12+3".toList (.ok 15) := by
  have h : HandParses .checked ("12".toList ++ "+3".toList) (.ok 15) :=
    (C46_value _ _ _).2 ⟨⟨0, .add (.prod (.term (.pos ⟨1, [2]⟩ 0))) 0 (.term (.pos ⟨3, []⟩ 0))⟩, by decide, by decide⟩
  refine ⟨?_, h⟩
  refine (C92_hand "12".toList "+3".toList 2 ?_ 15).2 h
  rintro ⟨x', c, d, y', -, h, -, hd⟩
  cases h
  exact absurd hd (by decide)

end Chomp
