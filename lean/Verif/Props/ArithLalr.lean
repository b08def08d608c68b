import Verif.Bench.ArithLalr
import Verif.Props.ArithNibble

/-!
# C61: the LALRPOP parser of arithmetic expressions

It agrees with the generated and with the hand-written parser, except that it takes any white space where they take
spaces.
-/

namespace Chomp

/-! ## Specification -/

/-- The characters with the Unicode property `White_Space`. -/
def whiteSpace : List Char :=
  ['\u0009', '\u000A', '\u000B', '\u000C', '\u000D', '\u0020', '\u0085', '\u00A0', '\u1680', '\u2000', '\u2001', '\u2002', '\u2003', '\u2004',
   '\u2005', '\u2006', '\u2007', '\u2008', '\u2009', '\u200A', '\u2028', '\u2029', '\u202F', '\u205F', '\u3000']

/-- The text with every white-space character replaced by a space. -/
def blanks (s : List Char) : List Char := s.map fun c => if c ∈ whiteSpace then ' ' else c

theorem isWhite_iff (c : Char) : isWhite c = true ↔ c ∈ whiteSpace := by
  constructor
  · intro h
    simp only [isWhite, Bool.or_eq_true, Bool.and_eq_true, decide_eq_true_eq, beq_iff_eq] at h
    have : c.toNat ∈ whiteSpace.map Char.toNat := by
      show c.toNat ∈ [9, 10, 11, 12, 13, 0x20, 0x85, 0xA0, 0x1680, 0x2000, 0x2001, 0x2002, 0x2003, 0x2004, 0x2005, 0x2006, 0x2007, 0x2008,
        0x2009, 0x200A, 0x2028, 0x2029, 0x202F, 0x205F, 0x3000]
      simp only [List.mem_cons, List.not_mem_nil, or_false]
      omega
    obtain ⟨d, hd, he⟩ := List.mem_map.1 this
    rw [← Char.toNat_inj.1 he]
    exact hd
  · intro h
    have key : ∀ c ∈ whiteSpace, isWhite c = true := by decide
    exact key c h

theorem blanks_cons (c : Char) (s : List Char) : blanks (c :: s) = (if isWhite c then ' ' else c) :: blanks s := by
  show (if c ∈ whiteSpace then ' ' else c) :: blanks s = _
  simp only [isWhite_iff]

/-! ## Tokens -/

theorem arithTok_shorter (s : List Char) (t : LTok) (r : List Char) (h : arithTok s = some (t, r)) : r.length < s.length := by
  cases s with
  | nil => cases h
  | cons c s =>
    simp only [arithTok] at h
    repeat' split at h
    all_goals cases h
    all_goals simp only [List.length_cons]
    · have := dropWhile_length_le Char.isDigit s; omega
    all_goals omega

/-- The tokens of a text. -/
abbrev aToks (s : List Char) : Option (List LTok) := lalrTokens arithTok s

theorem isWhite_not_digit {c : Char} (h : isWhite c = true) : c.isDigit = false := by
  by_cases hd : c.isDigit = true
  · simp only [Char.isDigit, Bool.and_eq_true, decide_eq_true_eq] at hd
    have h1 : 48 ≤ c.toNat := hd.1
    have h2 : c.toNat ≤ 57 := hd.2
    simp only [isWhite, Bool.or_eq_true, Bool.and_eq_true, decide_eq_true_eq, beq_iff_eq] at h
    omega
  · simpa using hd

theorem digit_not_white {c : Char} (h : c.isDigit = true) : isWhite c = false := by
  cases hw : isWhite c with
  | false => rfl
  | true => rw [isWhite_not_digit hw] at h; cases h

theorem aToks_nil : aToks [] = some [] := lalrTokens_nil
theorem aToks_white {c : Char} {s : List Char} (h : isWhite c = true) : aToks (c :: s) = aToks s :=
  lalrTokens_white arithTok_shorter h
theorem aToks_spaces (n : Nat) (s : List Char) : aToks (spaces n ++ s) = aToks s := by
  induction n with
  | zero => rfl
  | succ n ih => exact (aToks_white (by decide)).trans ih

/-- The text does not go on with a digit. -/
def NoDigitAt : List Char → Prop
  | [] => True
  | c :: _ => c.isDigit = false

theorem takeWhile_append_noDigit {d s : List Char} (hd : ∀ c ∈ d, c.isDigit = true) (hs : NoDigitAt s) :
    (d ++ s).takeWhile Char.isDigit = d ∧ (d ++ s).dropWhile Char.isDigit = s := by
  induction d with
  | nil =>
    cases s with
    | nil => exact ⟨rfl, rfl⟩
    | cons c s =>
      have : c.isDigit = false := hs
      simp [this]
  | cons c d ih =>
    have h1 := hd c (by simp)
    have := ih fun x hx => hd x (by simp [hx])
    simp [h1, this]

theorem aToks_num {c : Char} {d s : List Char} (hc : c.isDigit = true) (hd : ∀ c ∈ d, c.isDigit = true) (hs : NoDigitAt s) :
    aToks (c :: d ++ s) = (aToks s).map (.num (c :: d) :: ·) := by
  have h := takeWhile_append_noDigit hd hs
  refine lalrTokens_tok arithTok_shorter (digit_not_white hc) ?_
  show arithTok (c :: (d ++ s)) = _
  simp only [arithTok, hc, if_true, h.1, h.2]

theorem aToks_numeral (n : Numeral) {s : List Char} (hs : NoDigitAt s) :
    aToks (n.text ++ s) = (aToks s).map (.num n.text :: ·) := by
  refine aToks_num (c := digitChar n.first) (d := n.rest.map digitChar) ?_ ?_ hs
  · exact digitChar_isDigit _
  · intro c hc
    obtain ⟨f, _, rfl⟩ := List.mem_map.1 hc
    exact digitChar_isDigit _

theorem aToks_plus (s : List Char) : aToks ('+' :: s) = (aToks s).map (.plus :: ·) :=
  lalrTokens_tok arithTok_shorter (by decide) rfl
theorem aToks_minus (s : List Char) : aToks ('-' :: s) = (aToks s).map (.minus :: ·) :=
  lalrTokens_tok arithTok_shorter (by decide) rfl
theorem aToks_star (s : List Char) : aToks ('*' :: s) = (aToks s).map (.star :: ·) :=
  lalrTokens_tok arithTok_shorter (by decide) rfl
theorem aToks_slash (s : List Char) : aToks ('/' :: s) = (aToks s).map (.slash :: ·) :=
  lalrTokens_tok arithTok_shorter (by decide) rfl
theorem aToks_lpar (s : List Char) : aToks ('(' :: s) = (aToks s).map (.lpar :: ·) :=
  lalrTokens_tok arithTok_shorter (by decide) rfl
theorem aToks_rpar (s : List Char) : aToks (')' :: s) = (aToks s).map (.rpar :: ·) :=
  lalrTokens_tok arithTok_shorter (by decide) rfl

/-- The text of a token. -/
def LTok.text : LTok → List Char
  | .num s => s
  | .plus => ['+'] | .minus => ['-'] | .star => ['*'] | .slash => ['/'] | .lpar => ['('] | .rpar => [')']

/-- The text does not start with white space. -/
def Stripped : List Char → Prop
  | [] => True
  | c :: _ => isWhite c = false

theorem blanks_append (a b : List Char) : blanks (a ++ b) = blanks a ++ blanks b := List.map_append

/-- White space at the beginning. -/
theorem split_white (s : List Char) : ∃ n s', blanks s = spaces n ++ blanks s' ∧ Stripped s' ∧ aToks s = aToks s' := by
  induction s with
  | nil => exact ⟨0, [], rfl, trivial, rfl⟩
  | cons c s ih =>
    by_cases hc : isWhite c = true
    · obtain ⟨n, s', h1, h2, h3⟩ := ih
      refine ⟨n + 1, s', ?_, h2, (aToks_white hc).trans h3⟩
      rw [blanks_cons, if_pos hc, h1]
      rfl
    · exact ⟨0, c :: s, rfl, by simpa [Stripped] using hc, rfl⟩

theorem digits_blanks {d : List Char} (hd : ∀ c ∈ d, c.isDigit = true) : blanks d = d := by
  induction d with
  | nil => rfl
  | cons c d ih =>
    rw [blanks_cons, digit_not_white (hd c (by simp)), ih fun x hx => hd x (by simp [hx])]
    rfl

theorem takeWhile_all (p : Char → Bool) : ∀ (s : List Char), ∀ c ∈ s.takeWhile p, p c = true
  | [], c, h => by cases h
  | a :: s, c, h => by
    rw [List.takeWhile_cons] at h
    split at h
    · rcases List.mem_cons.1 h with rfl | h
      · assumption
      · exact takeWhile_all p s c h
    · cases h

/-- The first token of a text that starts with one. -/
theorem aToks_cons {s : List Char} {t : LTok} {ts : List LTok} (hs : Stripped s) (h : aToks s = some (t :: ts)) :
    ∃ r, blanks s = t.text ++ blanks r ∧ aToks r = some ts ∧ (∀ d, t = .num d → d ≠ [] ∧ ∀ c ∈ d, c.isDigit = true) := by
  cases s with
  | nil => rw [aToks_nil] at h; cases h
  | cons c s =>
    have hc : isWhite c = false := hs
    unfold aToks at h
    cases ht : arithTok (c :: s) with
    | none => rw [lalrTokens_none hc ht] at h; cases h
    | some p =>
      obtain ⟨t', r⟩ := p
      rw [lalrTokens_tok arithTok_shorter hc ht] at h
      cases hr : lalrTokens arithTok r with
      | none => rw [hr] at h; cases h
      | some l =>
        rw [hr] at h
        cases h
        refine ⟨r, ?_, hr, ?_⟩
        · have hb : blanks (c :: s) = c :: blanks s := by
            rw [blanks_cons, hc]; rfl
          rw [hb]
          simp only [arithTok] at ht
          split at ht
          · cases ht
            have := List.takeWhile_append_dropWhile (p := Char.isDigit) (l := s)
            show c :: blanks s = c :: (_ ++ _)
            rw [← this, blanks_append, digits_blanks (takeWhile_all _ s), this]
          · repeat' split at ht
            all_goals cases ht
            all_goals subst_vars
            all_goals rfl
        · rintro d rfl
          simp only [arithTok] at ht
          split at ht
          · rename_i hd
            cases ht
            refine ⟨by simp, fun x hx => ?_⟩
            rcases List.mem_cons.1 hx with rfl | hx
            · exact hd
            · exact takeWhile_all _ s x hx
          · repeat' split at ht
            all_goals cases ht

theorem digit_of_char {c : Char} (h : c.isDigit = true) : ∃ d : Fin 10, digitChar d = c := by
  simp only [Char.isDigit, Bool.and_eq_true, decide_eq_true_eq] at h
  have h1 : 48 ≤ c.toNat := h.1
  have h2 : c.toNat ≤ 57 := h.2
  refine ⟨⟨c.toNat - 48, by omega⟩, ?_⟩
  show Char.ofNat (48 + (c.toNat - 48)) = c
  rw [Nat.add_sub_cancel' h1, Char.ofNat_toNat]

theorem digits_of_chars : ∀ (s : List Char), (∀ c ∈ s, c.isDigit = true) → ∃ l : List (Fin 10), l.map digitChar = s
  | [], _ => ⟨[], rfl⟩
  | c :: s, h => by
    obtain ⟨d, hd⟩ := digit_of_char (h c (by simp))
    obtain ⟨l, hl⟩ := digits_of_chars s fun x hx => h x (by simp [hx])
    exact ⟨d :: l, by simp [hd, hl]⟩

theorem numeral_of_chars {s : List Char} (h0 : s ≠ []) (h : ∀ c ∈ s, c.isDigit = true) : ∃ n : Numeral, n.text = s := by
  obtain ⟨l, hl⟩ := digits_of_chars s h
  cases l with
  | nil => exact absurd hl.symm h0
  | cons d l => exact ⟨⟨d, l⟩, hl⟩

/-! ## From derivations to expressions -/

/-- The products of a list of factors. -/
def mulAll (m : Ovf) (t : Int) (l : List (Bool × Int)) : Option Int :=
  l.foldl (fun acc (p : Bool × Int) => acc.bind fun acc => if p.1 then m.fit (acc * p.2) else divI64 acc p.2) (some t)

/-- The sums of a list of summands. -/
def addAll (m : Ovf) (t : Int) (l : List (Bool × Int)) : Option Int :=
  l.foldl (fun acc (p : Bool × Int) => acc.bind fun acc => if p.1 then m.fit (acc + p.2) else m.fit (acc - p.2)) (some t)

theorem foldl_none {β : Type} (f : Int → β → Option Int) : ∀ (l : List β), l.foldl (fun acc p => acc.bind fun a => f a p) none = none
  | [] => rfl
  | _ :: l => foldl_none f l

theorem mulAll_cons (m : Ovf) (t x : Int) (op : Bool) (l : List (Bool × Int)) :
    mulAll m t ((op, x) :: l) = (if op then m.fit (t * x) else divI64 t x).bind fun y => mulAll m y l := by
  cases h : (if op then m.fit (t * x) else divI64 t x) with
  | none =>
    simp only [mulAll, List.foldl_cons, Option.bind_some, h, Option.bind_none]
    exact foldl_none (fun (acc : Int) (p : Bool × Int) => if p.1 then m.fit (acc * p.2) else divI64 acc p.2) l
  | some y => simp only [mulAll, List.foldl_cons, Option.bind_some, h]

theorem addAll_cons (m : Ovf) (t x : Int) (op : Bool) (l : List (Bool × Int)) :
    addAll m t ((op, x) :: l) = (if op then m.fit (t + x) else m.fit (t - x)).bind fun y => addAll m y l := by
  cases h : (if op then m.fit (t + x) else m.fit (t - x)) with
  | none =>
    simp only [addAll, List.foldl_cons, Option.bind_some, h, Option.bind_none]
    exact foldl_none (fun (acc : Int) (p : Bool × Int) => if p.1 then m.fit (acc + p.2) else m.fit (acc - p.2)) l
  | some y => simp only [addAll, List.foldl_cons, Option.bind_some, h]

theorem LProd.run_eq (m : Ovf) (t : LTerm) (v : LMuls) :
    (LProd.mk t v).run m = (t.run m).bind fun t => (v.run m).bind fun l => mulAll m t l := rfl
theorem LExpr.run_eq (m : Ovf) (t : LProd) (v : LAdds) :
    (LExpr.mk t v).run m = (t.run m).bind fun t => (v.run m).bind fun l => addAll m t l := rfl

theorem mul_step (m : Ovf) (op : Bool) (a r : Option Int) (v : Option (List (Bool × Int))) :
    ((bin (fun a b => if op then m.fit (a * b) else divI64 a b) a r).bind fun x => v.bind fun l => mulAll m x l) =
    a.bind fun x => (r.bind fun t => v.map ((op, t) :: ·)).bind fun l => mulAll m x l := by
  cases a with
  | none => rfl
  | some a =>
    cases r with
    | none => rfl
    | some r =>
      cases v with
      | none => simp [bin]
      | some v => simp [bin, mulAll_cons]

theorem add_step (m : Ovf) (op : Bool) (a r : Option Int) (v : Option (List (Bool × Int))) :
    ((bin (fun a b => if op then m.fit (a + b) else m.fit (a - b)) a r).bind fun x => v.bind fun l => addAll m x l) =
    a.bind fun x => (r.bind fun t => v.map ((op, t) :: ·)).bind fun l => addAll m x l := by
  cases a with
  | none => rfl
  | some a =>
    cases r with
    | none => rfl
    | some r =>
      cases v with
      | none => simp [bin]
      | some v => simp [bin, addAll_cons]

theorem parseI64_numeral (n : Numeral) : parseI64 n.text = Ovf.checked.fit n.val := by
  have := valNumber_numTree n
  rwa [valNumber, numTree_display] at this

mutual
theorem LTerm.fwd : ∀ (t : LTerm) (s : List Char) (rest : List LTok), Stripped s → aToks s = some (t.toks ++ rest) →
    ∃ (a : ATerm) (s' : List Char), Stripped s' ∧ aToks s' = some rest ∧ blanks s = a.text ++ blanks s' ∧
      ∀ m, a.strict m = t.run m
  | .number d, s, rest, hs, h => by
    obtain ⟨r, h1, h2, h3⟩ := aToks_cons hs h
    obtain ⟨hd, hd'⟩ := h3 d rfl
    obtain ⟨n, rfl⟩ := numeral_of_chars hd hd'
    obtain ⟨k, s', h4, h5, h6⟩ := split_white r
    refine ⟨.pos n k, s', h5, by rw [← h6, h2]; rfl, by rw [h1, h4]; simp [ATerm.text, LTok.text], fun m => ?_⟩
    rw [ATerm.strict, LTerm.run, parseI64_numeral]
  | .neg d, s, rest, hs, h => by
    obtain ⟨r, h1, h2, -⟩ := aToks_cons hs h
    obtain ⟨k, r', h4, h5, h6⟩ := split_white r
    rw [h6] at h2
    obtain ⟨r2, h7, h8, h3⟩ := aToks_cons h5 h2
    obtain ⟨hd, hd'⟩ := h3 d rfl
    obtain ⟨n, rfl⟩ := numeral_of_chars hd hd'
    obtain ⟨k2, s', h9, h10, h11⟩ := split_white r2
    refine ⟨.neg k n k2, s', h10, by rw [← h11, h8]; rfl, by rw [h1, h4, h7, h9]; simp [ATerm.text, LTok.text], fun m => ?_⟩
    rw [ATerm.strict, LTerm.run, parseI64_numeral]
  | .parens e, s, rest, hs, h => by
    have h : aToks s = some (.lpar :: (e.toks ++ (.rpar :: rest))) := by rw [h, LTerm.toks]; simp
    obtain ⟨r, h1, h2, -⟩ := aToks_cons hs h
    obtain ⟨k, r', h4, h5, h6⟩ := split_white r
    rw [h6] at h2
    obtain ⟨a, r2, h7, h8, h9, h10⟩ := LExpr.fwd e r' _ h5 h2
    obtain ⟨r3, h11, h12, -⟩ := aToks_cons h7 h8
    obtain ⟨k2, s', h13, h14, h15⟩ := split_white r3
    refine ⟨.paren k a k2, s', h14, by rw [← h15, h12], by rw [h1, h4, h9, h11, h13]; simp [ATerm.text, LTok.text], fun m => ?_⟩
    rw [ATerm.strict, LTerm.run, h10]
theorem LProd.fwd : ∀ (t : LProd) (s : List Char) (rest : List LTok), Stripped s → aToks s = some (t.toks ++ rest) →
    ∃ (a : AProd) (s' : List Char), Stripped s' ∧ aToks s' = some rest ∧ blanks s = a.text ++ blanks s' ∧
      ∀ m, a.strict m = t.run m
  | .mk t v, s, rest, hs, h => by
    rw [LProd.toks, List.append_assoc] at h
    obtain ⟨a, s1, h1, h2, h3, h4⟩ := LTerm.fwd t s _ hs h
    obtain ⟨b, s2, h5, h6, h7, h8⟩ := LMuls.fwd v (.term a) s1 rest h1 h2
    refine ⟨b, s2, h5, h6, by rw [h3, ← h7, AProd.text], fun m => ?_⟩
    rw [h8, LProd.run_eq, AProd.strict, h4]
theorem LMuls.fwd : ∀ (v : LMuls) (acc : AProd) (s : List Char) (rest : List LTok), Stripped s → aToks s = some (v.toks ++ rest) →
    ∃ (a : AProd) (s' : List Char), Stripped s' ∧ aToks s' = some rest ∧ acc.text ++ blanks s = a.text ++ blanks s' ∧
      ∀ m, a.strict m = (acc.strict m).bind fun x => (v.run m).bind fun l => mulAll m x l
  | .nil, acc, s, rest, hs, h => ⟨acc, s, hs, h, rfl, fun m => by cases acc.strict m <;> rfl⟩
  | .cons op t v, acc, s, rest, hs, h => by
    have h : aToks s = some ((if op then .star else .slash) :: (t.toks ++ (v.toks ++ rest))) := by rw [h, LMuls.toks]; simp
    obtain ⟨r, h1, h2, -⟩ := aToks_cons hs h
    obtain ⟨k, r', h4, h5, h6⟩ := split_white r
    rw [h6] at h2
    obtain ⟨a, s1, h7, h8, h9, h10⟩ := LTerm.fwd t r' _ h5 h2
    cases op with
    | true =>
      obtain ⟨b, s2, h11, h12, h13, h14⟩ := LMuls.fwd v (.mul acc k a) s1 rest h7 h8
      refine ⟨b, s2, h11, h12, by rw [← h13, h1, h4, h9]; simp [AProd.text, LTok.text], fun m => ?_⟩
      rw [h14, AProd.strict, LMuls.run, ← h10, ← mul_step m true]
      rfl
    | false =>
      obtain ⟨b, s2, h11, h12, h13, h14⟩ := LMuls.fwd v (.div acc k a) s1 rest h7 h8
      refine ⟨b, s2, h11, h12, by rw [← h13, h1, h4, h9]; simp [AProd.text, LTok.text], fun m => ?_⟩
      rw [h14, AProd.strict, LMuls.run, ← h10, ← mul_step m false]
      rfl
theorem LExpr.fwd : ∀ (t : LExpr) (s : List Char) (rest : List LTok), Stripped s → aToks s = some (t.toks ++ rest) →
    ∃ (a : ASum) (s' : List Char), Stripped s' ∧ aToks s' = some rest ∧ blanks s = a.text ++ blanks s' ∧
      ∀ m, a.strict m = t.run m
  | .mk t v, s, rest, hs, h => by
    rw [LExpr.toks, List.append_assoc] at h
    obtain ⟨a, s1, h1, h2, h3, h4⟩ := LProd.fwd t s _ hs h
    obtain ⟨b, s2, h5, h6, h7, h8⟩ := LAdds.fwd v (.prod a) s1 rest h1 h2
    refine ⟨b, s2, h5, h6, by rw [h3, ← h7, ASum.text], fun m => ?_⟩
    rw [h8, LExpr.run_eq, ASum.strict, h4]
theorem LAdds.fwd : ∀ (v : LAdds) (acc : ASum) (s : List Char) (rest : List LTok), Stripped s → aToks s = some (v.toks ++ rest) →
    ∃ (a : ASum) (s' : List Char), Stripped s' ∧ aToks s' = some rest ∧ acc.text ++ blanks s = a.text ++ blanks s' ∧
      ∀ m, a.strict m = (acc.strict m).bind fun x => (v.run m).bind fun l => addAll m x l
  | .nil, acc, s, rest, hs, h => ⟨acc, s, hs, h, rfl, fun m => by cases acc.strict m <;> rfl⟩
  | .cons op t v, acc, s, rest, hs, h => by
    have h : aToks s = some ((if op then .plus else .minus) :: (t.toks ++ (v.toks ++ rest))) := by rw [h, LAdds.toks]; simp
    obtain ⟨r, h1, h2, -⟩ := aToks_cons hs h
    obtain ⟨k, r', h4, h5, h6⟩ := split_white r
    rw [h6] at h2
    obtain ⟨a, s1, h7, h8, h9, h10⟩ := LProd.fwd t r' _ h5 h2
    cases op with
    | true =>
      obtain ⟨b, s2, h11, h12, h13, h14⟩ := LAdds.fwd v (.add acc k a) s1 rest h7 h8
      refine ⟨b, s2, h11, h12, by rw [← h13, h1, h4, h9]; simp [ASum.text, LTok.text], fun m => ?_⟩
      rw [h14, ASum.strict, LAdds.run, ← h10, ← add_step m true]
      rfl
    | false =>
      obtain ⟨b, s2, h11, h12, h13, h14⟩ := LAdds.fwd v (.sub acc k a) s1 rest h7 h8
      refine ⟨b, s2, h11, h12, by rw [← h13, h1, h4, h9]; simp [ASum.text, LTok.text], fun m => ?_⟩
      rw [h14, ASum.strict, LAdds.run, ← h10, ← add_step m false]
      rfl
end

/-! ## From expressions to derivations -/

mutual
/-- The derivation of an expression. -/
def ATerm.toL : ATerm → LTerm
  | .pos n _ => .number n.text
  | .neg _ n _ => .neg n.text
  | .paren _ e _ => .parens (e.toL .nil)
/-- See `ATerm.toL`; with the factors that follow. -/
def AProd.toL : AProd → LMuls → LProd
  | .term t, v => .mk t.toL v
  | .mul l _ r, v => l.toL (.cons true r.toL v)
  | .div l _ r, v => l.toL (.cons false r.toL v)
/-- See `ATerm.toL`; with the summands that follow. -/
def ASum.toL : ASum → LAdds → LExpr
  | .prod p, v => .mk (p.toL .nil) v
  | .add l _ r, v => l.toL (.cons true (r.toL .nil) v)
  | .sub l _ r, v => l.toL (.cons false (r.toL .nil) v)
end

theorem noDigitAt_spaces (n : Nat) {s : List Char} (h : NoDigitAt s) : NoDigitAt (spaces n ++ s) := by
  cases n with
  | zero => exact h
  | succ n => show Char.isDigit ' ' = false; decide

mutual
theorem ATerm.bwd : ∀ (a : ATerm) (s : List Char) (rest : List LTok), NoDigitAt s → aToks s = some rest →
    aToks (a.text ++ s) = some (a.toL.toks ++ rest)
  | .pos n sp, s, rest, hs, h => by
    rw [ATerm.text, List.append_assoc, aToks_numeral n (noDigitAt_spaces sp hs), aToks_spaces, h]
    rfl
  | .neg sp1 n sp, s, rest, hs, h => by
    have : (ATerm.neg sp1 n sp).text ++ s = '-' :: (spaces sp1 ++ (n.text ++ (spaces sp ++ s))) := by simp [ATerm.text]
    rw [this, aToks_minus, aToks_spaces, aToks_numeral n (noDigitAt_spaces sp hs), aToks_spaces, h]
    rfl
  | .paren sp1 e sp, s, rest, hs, h => by
    have : (ATerm.paren sp1 e sp).text ++ s = '(' :: (spaces sp1 ++ (e.text ++ (')' :: (spaces sp ++ s)))) := by simp [ATerm.text]
    rw [this, aToks_lpar, aToks_spaces, ASum.bwd e (')' :: (spaces sp ++ s)) .nil (.rpar :: rest)
      (by show Char.isDigit ')' = false; decide) (by rw [aToks_rpar, aToks_spaces, h]; rfl)]
    simp [ATerm.toL, LTerm.toks]
theorem AProd.bwd : ∀ (a : AProd) (s : List Char) (v : LMuls) (rest : List LTok), NoDigitAt s → aToks s = some (v.toks ++ rest) →
    aToks (a.text ++ s) = some ((a.toL v).toks ++ rest)
  | .term t, s, v, rest, hs, h => by
    rw [AProd.text, ATerm.bwd t s _ hs h]
    simp [AProd.toL, LProd.toks]
  | .mul l sp r, s, v, rest, hs, h => by
    have : (AProd.mul l sp r).text ++ s = l.text ++ ('*' :: (spaces sp ++ (r.text ++ s))) := by simp [AProd.text]
    rw [this]
    refine AProd.bwd l _ (.cons true r.toL v) rest (by show Char.isDigit '*' = false; decide) ?_
    rw [aToks_star, aToks_spaces, ATerm.bwd r s _ hs h]
    simp [LMuls.toks]
  | .div l sp r, s, v, rest, hs, h => by
    have : (AProd.div l sp r).text ++ s = l.text ++ ('/' :: (spaces sp ++ (r.text ++ s))) := by simp [AProd.text]
    rw [this]
    refine AProd.bwd l _ (.cons false r.toL v) rest (by show Char.isDigit '/' = false; decide) ?_
    rw [aToks_slash, aToks_spaces, ATerm.bwd r s _ hs h]
    simp [LMuls.toks]
theorem ASum.bwd : ∀ (a : ASum) (s : List Char) (v : LAdds) (rest : List LTok), NoDigitAt s → aToks s = some (v.toks ++ rest) →
    aToks (a.text ++ s) = some ((a.toL v).toks ++ rest)
  | .prod p, s, v, rest, hs, h => by
    rw [ASum.text, AProd.bwd p s .nil (v.toks ++ rest) hs h]
    simp [ASum.toL, LExpr.toks]
  | .add l sp r, s, v, rest, hs, h => by
    have : (ASum.add l sp r).text ++ s = l.text ++ ('+' :: (spaces sp ++ (r.text ++ s))) := by simp [ASum.text]
    rw [this]
    refine ASum.bwd l _ (.cons true (r.toL .nil) v) rest (by show Char.isDigit '+' = false; decide) ?_
    rw [aToks_plus, aToks_spaces, AProd.bwd r s .nil _ hs h]
    simp [LAdds.toks]
  | .sub l sp r, s, v, rest, hs, h => by
    have : (ASum.sub l sp r).text ++ s = l.text ++ ('-' :: (spaces sp ++ (r.text ++ s))) := by simp [ASum.text]
    rw [this]
    refine ASum.bwd l _ (.cons false (r.toL .nil) v) rest (by show Char.isDigit '-' = false; decide) ?_
    rw [aToks_minus, aToks_spaces, AProd.bwd r s .nil _ hs h]
    simp [LAdds.toks]
end

mutual
theorem ATerm.toL_run (m : Ovf) : ∀ (a : ATerm), a.toL.run m = a.strict m
  | .pos n _ => by rw [ATerm.toL, LTerm.run, parseI64_numeral, ATerm.strict]
  | .neg _ n _ => by rw [ATerm.toL, LTerm.run, parseI64_numeral, ATerm.strict]
  | .paren _ e _ => by
    rw [ATerm.toL, LTerm.run, ASum.toL_run m e, ATerm.strict]
    cases e.strict m <;> rfl
theorem AProd.toL_run (m : Ovf) : ∀ (a : AProd) (v : LMuls),
    (a.toL v).run m = (a.strict m).bind fun x => (v.run m).bind fun l => mulAll m x l
  | .term t, v => by rw [AProd.toL, LProd.run_eq, ATerm.toL_run m t, AProd.strict]
  | .mul l sp r, v => by
    rw [AProd.toL, AProd.toL_run m l, LMuls.run, ATerm.toL_run m r, ← mul_step m true, AProd.strict]
    rfl
  | .div l sp r, v => by
    rw [AProd.toL, AProd.toL_run m l, LMuls.run, ATerm.toL_run m r, ← mul_step m false, AProd.strict]
    rfl
theorem ASum.toL_run (m : Ovf) : ∀ (a : ASum) (v : LAdds),
    (a.toL v).run m = (a.strict m).bind fun x => (v.run m).bind fun l => addAll m x l
  | .prod p, v => by
    rw [ASum.toL, LExpr.run_eq, AProd.toL_run m p, ASum.strict]
    cases p.strict m <;> rfl
  | .add l sp r, v => by
    rw [ASum.toL, ASum.toL_run m l, LAdds.run, AProd.toL_run m r, ← add_step m true, ASum.strict]
    cases r.strict m <;> rfl
  | .sub l sp r, v => by
    rw [ASum.toL, ASum.toL_run m l, LAdds.run, AProd.toL_run m r, ← add_step m false, ASum.strict]
    cases r.strict m <;> rfl
end

/-! ## White space -/

theorem blank_isWhite (c : Char) : isWhite (if isWhite c then ' ' else c) = isWhite c := by
  by_cases h : isWhite c = true
  · rw [if_pos h, h]; decide
  · rw [if_neg h]

theorem blank_isDigit (c : Char) : (if isWhite c then ' ' else c).isDigit = c.isDigit := by
  by_cases h : isWhite c = true
  · rw [if_pos h, isWhite_not_digit h]; decide
  · rw [if_neg h]

theorem blanks_takeWhile : ∀ (s : List Char), (blanks s).takeWhile Char.isDigit = s.takeWhile Char.isDigit ∧
    (blanks s).dropWhile Char.isDigit = blanks (s.dropWhile Char.isDigit)
  | [] => ⟨rfl, rfl⟩
  | c :: s => by
    have ih := blanks_takeWhile s
    rw [blanks_cons]
    rw [List.takeWhile_cons, List.dropWhile_cons, List.takeWhile_cons, List.dropWhile_cons, blank_isDigit]
    by_cases hd : c.isDigit = true
    · simp only [hd, if_true, ih, digit_not_white hd, Bool.false_eq_true, if_false, and_self]
    · simp only [hd, Bool.false_eq_true, if_false, true_and]
      exact (blanks_cons c s).symm

theorem aToks_blanks : ∀ (n : Nat) (s : List Char), s.length ≤ n → aToks (blanks s) = aToks s
  | _, [], _ => rfl
  | 0, _ :: _, h => by simp at h
  | n + 1, c :: s, h => by
    simp only [List.length_cons, Nat.add_le_add_iff_right] at h
    rw [blanks_cons]
    by_cases hc : isWhite c = true
    · rw [if_pos hc, aToks_white (by decide), aToks_white hc, aToks_blanks n s h]
    · have hc' : isWhite c = false := by simpa using hc
      rw [if_neg hc]
      have key : arithTok (c :: blanks s) = (arithTok (c :: s)).map fun p => (p.1, blanks p.2) := by
        simp only [arithTok, blanks_takeWhile s]
        repeat' split
        all_goals rfl
      cases ht : arithTok (c :: s) with
      | none =>
        rw [ht] at key
        exact (lalrTokens_none hc' key).trans (lalrTokens_none hc' ht).symm
      | some p =>
        obtain ⟨t, r⟩ := p
        have hr := arithTok_shorter _ _ _ ht
        simp only [List.length_cons] at hr
        rw [ht] at key
        have ih := aToks_blanks n r (by omega)
        refine (lalrTokens_tok arithTok_shorter hc' key).trans ?_
        refine Eq.trans ?_ (lalrTokens_tok arithTok_shorter hc' ht).symm
        exact congrArg _ ih

/-! ## The claims -/

/-- **C61.** The LALRPOP parser accepts a text exactly if it is that of an arithmetic expression, up to the kind of white
space, and it computes the value of that expression, where numbers that do not fit in an `i64` are errors (`none`). -/
theorem C61_value (m : Ovf) (text : List Char) (r : Option Int) :
    LalrArith m text r ↔ ∃ i : AInput, i.text = blanks text ∧ i.sum.strict m = r := by
  constructor
  · rintro ⟨e, h, rfl⟩
    obtain ⟨n, s', h1, h2, h3⟩ := split_white text
    have h : aToks s' = some (e.toks ++ []) := by rw [← h3, List.append_nil]; exact h
    obtain ⟨a, s2, h4, h5, h6, h7⟩ := LExpr.fwd e s' [] h2 h
    have : s2 = [] := by
      cases s2 with
      | nil => rfl
      | cons c s =>
        exfalso
        have hc : isWhite c = false := h4
        unfold aToks at h5
        cases ht : arithTok (c :: s) with
        | none => rw [lalrTokens_none hc ht] at h5; cases h5
        | some p =>
          rw [lalrTokens_tok arithTok_shorter hc ht] at h5
          cases hr : lalrTokens arithTok p.2 <;> rw [hr] at h5 <;> cases h5
    subst this
    exact ⟨⟨n, a⟩, by rw [AInput.text, h1, h6]; simp [blanks], h7 m⟩
  · rintro ⟨i, h, rfl⟩
    refine ⟨i.sum.toL .nil, ?_, ?_⟩
    · have := ASum.bwd i.sum [] .nil [] trivial (by rw [aToks_nil]; rfl)
      rw [List.append_nil, List.append_nil] at this
      show aToks text = _
      rw [← aToks_blanks _ text (Nat.le_refl _), ← h, AInput.text, aToks_spaces, this]
    · rw [ASum.toL_run]
      cases i.sum.strict m <;> rfl

/-- **C61** (against the generated parser). On a text in which all white space is spaces the LALRPOP parser and the parser
generated by chomp accept or reject together, and the computed values, or the panics while computing them, are the same, in
all builds; white space of other kinds counts as spaces. -/
theorem C61_agrees_with_generated (st : BState) (h : Generates arithToks st) (m : Ovf) (text : List Char) (r : Option Int) :
    LalrArith m text r ↔ ∃ t, Parses st 0 (blanks text) (.ok t) ∧ valAst m t = r := by
  rw [C61_value]
  constructor
  · rintro ⟨i, h1, h2⟩
    exact ⟨i.tree, (generated_iff h _ _).2 ⟨i, h1, rfl⟩, by rw [AInput.tree_val, h2]⟩
  · rintro ⟨t, hp, hv⟩
    obtain ⟨i, h1, rfl⟩ := (generated_iff h _ _).1 hp
    exact ⟨i, h1, by rw [← AInput.tree_val, hv]⟩

/-- **C61** (against the hand-written parser). In builds that check for overflow, the LALRPOP parser returns `v` on exactly
the texts on which the hand-written parser returns `v`, after replacing white space by spaces; in other builds the
hand-written parser returns `v` whenever the LALRPOP parser does. -/
theorem C61_agrees_with_hand (text : List Char) (v : Int) :
    (LalrArith .checked text (some v) ↔ HandParses .checked (blanks text) (.ok v)) ∧
    ∀ m, LalrArith m text (some v) → HandParses m (blanks text) (.ok v) := by
  constructor
  · rw [C61_value, C46_value]
    simp only [ASum.strict_checked]
  · intro m h
    obtain ⟨i, h1, h2⟩ := (C61_value m text _).1 h
    exact (C46_value _ _ _).2 ⟨i, h1, ASum.eval_of_strict m _ _ h2⟩

/-- **C61** (one result). A text has at most one result. -/
theorem C61_unique (m : Ovf) (text : List Char) (r r' : Option Int) (h : LalrArith m text r) (h' : LalrArith m text r') : r = r' := by
  obtain ⟨st, hg⟩ := (generates_table arith_compiled).1
  obtain ⟨t, hp, rfl⟩ := (C61_agrees_with_generated st hg m text r).1 h
  obtain ⟨t', hp', rfl⟩ := (C61_agrees_with_generated st hg m text r').1 h'
  have := hp.unique hp'
  cases this
  rfl

/-- The expression of `exArith`, over two lines, indented with a tab. -/
example : LalrArith .checked "\t8 - (-7\n/ 2) * 3 - 10".toList (some 7) :=
  (C61_value _ _ _).2 ⟨exArith, by decide +kernel, by decide +kernel⟩

/-- `parse_expr` takes only spaces. -/
example : ∃ e, HandParses .checked "\t8".toList (.err e) := ⟨_, by simp, 5, rfl⟩

end Chomp
