import Verif.Props.TestsBuilt
import Verif.Gram.Productive
import Verif.Props.JsonNibble
import Verif.Props.ArithNibble

/-!
# C68: the grammars of the repository compile, and what their parsers accept

`tests/full/nibble/*.nb` (the tests check that the compiler accepts them), the grammars of the benchmarks
(`chomp-bench/src/arith/nibble.rs`, `chomp-bench/src/json/nibble.rs`) and of `autonibble/src/lib.rs`.
-/

namespace Chomp

/-! ## Their languages -/

/-- The language of a fix point is closed under the body. -/
theorem Gram.lang_fix (b : Gram) (ρ : Nat → Lang) {w : List Char} (h : b.lang (((Gram.fix b).lang ρ).push ρ) w) :
    (Gram.fix b).lang ρ w := by
  intro X hX
  refine hX w (b.lang_mono (fun k v hv => ?_) w h)
  cases k with
  | zero => exact hv X hX
  | succ k => exact hv

theorem lang_opt (g : Gram) (ρ : Nat → Lang) (w : List Char) : (optG g).lang ρ w ↔ w = [] ∨ g.lang ρ w := by
  simp [optG, Gram.lang, Gram.langAlt]

theorem lang_chars (l : List Char) (ρ : Nat → Lang) (w : List Char) : Gram.langAlt (charsG l) ρ w ↔ ∃ c ∈ l, w = [c] := by
  induction l with
  | nil => simp [charsG, Gram.langAlt]
  | cons c l ih =>
    have : charsG (c :: l) = .lit [c] :: charsG l := rfl
    simp [this, Gram.langAlt, Gram.lang, ih]

/-- `w` is a sequence of texts of `L`. -/
inductive SeqOf (L : Lang) : Lang
  | nil : SeqOf L []
  | cons {u v : List Char} : L u → SeqOf L v → SeqOf L (u ++ v)

theorem SeqOf.congr {L M : Lang} (h : ∀ w, L w ↔ M w) {w : List Char} : SeqOf L w ↔ SeqOf M w := by
  have : L = M := funext fun w => propext (h w)
  rw [this]

/-- `g` does not use the variables of its context. -/
def Gram.closedG (g : Gram) : Prop := ∀ ρ ρ' w, g.lang ρ w ↔ g.lang ρ' w

theorem lang_star {g : Gram} (hg : g.closedG) (ρ : Nat → Lang) (w : List Char) : (starG g).lang ρ w ↔ SeqOf g.language w := by
  constructor
  · intro h
    refine h (SeqOf g.language) fun v hv => ?_
    rcases (lang_opt _ _ v).1 hv with rfl | ⟨u, v', rfl, h1, u', v'', rfl, h2, rfl⟩
    · exact .nil
    · rw [List.append_nil]
      exact .cons ((hg _ _ _).1 h1) h2
  · intro h
    induction h with
    | nil => exact Gram.lang_fix _ _ ((lang_opt _ _ _).2 (.inl rfl))
    | @cons u v h1 _ ih =>
      exact Gram.lang_fix _ _ ((lang_opt _ _ _).2 (.inr ⟨u, v, rfl, (hg _ _ _).1 h1, v, [], by simp, ih, rfl⟩))

theorem lang_plus {g : Gram} (hg : g.closedG) (ρ : Nat → Lang) (w : List Char) :
    (plusG g).lang ρ w ↔ ∃ u v, w = u ++ v ∧ g.language u ∧ SeqOf g.language v := by
  constructor
  · intro h
    refine h (fun w => ∃ u v, w = u ++ v ∧ g.language u ∧ SeqOf g.language v) fun w hw => ?_
    obtain ⟨u, v, rfl, h1, u', v', rfl, h2, rfl⟩ := hw
    rw [List.append_nil]
    refine ⟨u, u', rfl, (hg _ _ _).1 h1, ?_⟩
    rcases (lang_opt _ _ _).1 h2 with rfl | ⟨a, b, rfl, ha, hb⟩
    · exact .nil
    · exact .cons ha hb
  · rintro ⟨u, v, rfl, h1, h2⟩
    induction h2 generalizing u with
    | nil => exact Gram.lang_fix _ _ ⟨u, [], rfl, (hg _ _ _).1 h1, [], [], rfl, (lang_opt _ _ _).2 (.inl rfl), rfl⟩
    | @cons a b ha _ ih =>
      exact Gram.lang_fix _ _ ⟨u, a ++ b, rfl, (hg _ _ _).1 h1, a ++ b, [], by simp, (lang_opt _ _ _).2 (.inr (ih a ha)), rfl⟩

theorem seqOf_char (c : Char) (w : List Char) : SeqOf (fun w => w = [c]) w ↔ ∃ n, w = List.replicate n c := by
  constructor
  · intro h
    induction h with
    | nil => exact ⟨0, rfl⟩
    | cons h _ ih =>
      obtain ⟨n, rfl⟩ := ih
      subst h
      exact ⟨n + 1, rfl⟩
  · rintro ⟨n, rfl⟩
    induction n with
    | zero => exact .nil
    | succ n ih => exact .cons (u := [c]) rfl ih

theorem seqOf_chars (p : Char → Prop) (w : List Char) : SeqOf (fun w => ∃ c, p c ∧ w = [c]) w ↔ ∀ c ∈ w, p c := by
  constructor
  · intro h
    induction h with
    | nil => simp
    | cons h _ ih =>
      obtain ⟨c, hc, rfl⟩ := h
      simpa [hc] using ih
  · intro h
    induction w with
    | nil => exact .nil
    | cons c w ih => exact .cons (u := [c]) ⟨c, h c (by simp), rfl⟩ (ih fun c hc => h c (by simp [hc]))

theorem lit_closed (s : List Char) : (Gram.lit s).closedG := fun _ _ _ => Iff.rfl

/-- `sheep.nb` accepts `baa`, `baaa`, … -/
theorem C68_sheep : Builds sheepText fun w => ∃ n, w = 'b' :: 'a' :: 'a' :: List.replicate n 'a' := by
  have : sheepGram.language = fun w => ∃ n, w = 'b' :: 'a' :: 'a' :: List.replicate n 'a' := by
    funext w
    refine propext ⟨?_, ?_⟩
    · rintro ⟨u, v, rfl, rfl, u', v', rfl, h, rfl⟩
      obtain ⟨a, b, rfl, rfl, h1⟩ := (lang_plus (lit_closed _) _ _).1 h
      obtain ⟨n, rfl⟩ := (seqOf_char 'a' _).1 h1
      exact ⟨n, by simp⟩
    · rintro ⟨n, rfl⟩
      refine ⟨['b', 'a'], 'a' :: List.replicate n 'a', rfl, rfl, _, [], (List.append_nil _).symm, ?_, rfl⟩
      exact (lang_plus (lit_closed _) _ _).2 ⟨['a'], _, rfl, rfl, (seqOf_char 'a' _).2 ⟨n, rfl⟩⟩
  exact this ▸ sheep_builds

/-- `regex.nb` accepts one or more `a`s followed by any number of `b`s. -/
theorem C68_regex : Builds regexText fun w => ∃ n m, w = List.replicate (n + 1) 'a' ++ List.replicate m 'b' := by
  have : regexGram.language = fun w => ∃ n m, w = List.replicate (n + 1) 'a' ++ List.replicate m 'b' := by
    funext w
    refine propext ⟨?_, ?_⟩
    · rintro ⟨u, v, rfl, hu, u', v', rfl, h, rfl⟩
      obtain ⟨a, b, rfl, rfl, h1⟩ := (lang_plus (lit_closed _) _ _).1 hu
      obtain ⟨n, rfl⟩ := (seqOf_char 'a' _).1 h1
      obtain ⟨m, rfl⟩ := (seqOf_char 'b' _).1 ((lang_star (lit_closed _) _ _).1 h)
      exact ⟨n, m, by simp [List.replicate_succ]⟩
    · rintro ⟨n, m, rfl⟩
      refine ⟨_, _, rfl, (lang_plus (lit_closed _) _ _).2 ⟨['a'], List.replicate n 'a', rfl, rfl, (seqOf_char 'a' _).2 ⟨n, rfl⟩⟩,
        _, [], (List.append_nil _).symm, (lang_star (lit_closed _) _ _).2 ((seqOf_char 'b' _).2 ⟨m, rfl⟩), rfl⟩
  exact this ▸ regex_builds

/-- `ratata.nb` accepts the non-empty sequences of `ra` and `ta`. -/
theorem C68_ratata : Builds ratataText fun w => w ≠ [] ∧ SeqOf (fun s => s = ['r', 'a'] ∨ s = ['t', 'a']) w := by
  have hc : ∀ ρ w, (Gram.cat [.alt (charsG ['r', 't']), .lit ['a']]).lang ρ w ↔ (w = ['r', 'a'] ∨ w = ['t', 'a']) := by
    intro ρ w
    constructor
    · rintro ⟨u, v, rfl, h, u', v', rfl, rfl, rfl⟩
      obtain ⟨c, hc, rfl⟩ := (lang_chars _ _ _).1 h
      simpa using hc
    · rintro (rfl | rfl)
      · exact ⟨['r'], ['a'], rfl, (lang_chars _ _ _).2 ⟨'r', by simp, rfl⟩, ['a'], [], rfl, rfl, rfl⟩
      · exact ⟨['t'], ['a'], rfl, (lang_chars _ _ _).2 ⟨'t', by simp, rfl⟩, ['a'], [], rfl, rfl, rfl⟩
  have : ratataGram.language = fun w => w ≠ [] ∧ SeqOf (fun s => s = ['r', 'a'] ∨ s = ['t', 'a']) w := by
    funext w
    refine propext ((lang_plus (fun _ _ _ => (hc _ _).trans (hc _ _).symm) _ _).trans ⟨?_, ?_⟩)
    · rintro ⟨u, v, rfl, h1, h2⟩
      have h1 := (hc _ _).1 h1
      refine ⟨?_, .cons h1 ((SeqOf.congr (hc _)).1 h2)⟩
      rcases h1 with rfl | rfl <;> simp
    · rintro ⟨h, hs⟩
      cases hs with
      | nil => exact absurd rfl h
      | @cons u v h1 h2 => exact ⟨u, v, rfl, (hc _ _).2 h1, (SeqOf.congr (hc _)).2 h2⟩
  exact this ▸ ratata_builds

/-- `regex_fix.nb` accepts `a`s separated by dots, each dot followed by any number of spaces. -/
theorem C68_regex_fix : Builds regexFixText fun w => ∃ v, w = 'a' :: v ∧
    SeqOf (fun s => ∃ n, s = '.' :: List.replicate n ' ' ++ ['a']) v := by
  have : regexFixGram.language = fun w => ∃ v, w = 'a' :: v ∧ SeqOf (fun s => ∃ n, s = '.' :: List.replicate n ' ' ++ ['a']) v := by
    funext w
    refine propext ⟨fun h => h (fun w => ∃ v, w = 'a' :: v ∧ SeqOf (fun s => ∃ n, s = '.' :: List.replicate n ' ' ++ ['a']) v) fun w hw => ?_, ?_⟩
    · obtain ⟨u, v, rfl, rfl, u', v', rfl, h, rfl⟩ := hw
      refine ⟨u', by simp, ?_⟩
      rcases (lang_opt _ _ _).1 h with rfl | ⟨_, _, rfl, rfl, _, _, rfl, hs, _, _, rfl, ⟨v, rfl, hv⟩, rfl⟩
      · exact .nil
      · obtain ⟨n, rfl⟩ := (seqOf_char ' ' _).1 ((lang_star (lit_closed _) _ _).1 hs)
        have := SeqOf.cons (L := fun s => ∃ n, s = '.' :: List.replicate n ' ' ++ ['a']) ⟨n, rfl⟩ hv
        simpa using this
    · rintro ⟨v, rfl, h⟩
      induction h with
      | nil => exact Gram.lang_fix _ _ ⟨['a'], [], rfl, rfl, [], [], rfl, (lang_opt _ _ _).2 (.inl rfl), rfl⟩
      | @cons u v h _ ih =>
        obtain ⟨n, rfl⟩ := h
        exact Gram.lang_fix _ _ ⟨['a'], '.' :: List.replicate n ' ' ++ ['a'] ++ v, rfl, rfl, _, [], (List.append_nil _).symm,
          (lang_opt _ _ _).2 (.inr ⟨['.'], List.replicate n ' ' ++ 'a' :: v, by simp, rfl, List.replicate n ' ', 'a' :: v, rfl,
            (lang_star (lit_closed _) _ _).2 ((seqOf_char ' ' _).2 ⟨n, rfl⟩), 'a' :: v, [], by simp, ih, rfl⟩), rfl⟩
  exact this ▸ regexFix_builds

/-! ### The expressions of nibble -/

/-- Letters. -/
def ExpLetter (c : Char) : Prop := ('a' ≤ c ∧ c ≤ 'z') ∨ ('A' ≤ c ∧ c ≤ 'Z')
/-- Letters, digits and underscores. -/
def ExpWordChar (c : Char) : Prop := ExpLetter c ∨ ('0' ≤ c ∧ c ≤ '9') ∨ c = '_'
/-- Spaces and newlines. -/
def ExpSpace (w : List Char) : Prop := ∀ c ∈ w, c = ' ' ∨ c = '\n'
/-- Letters, digits and underscores. -/
def ExpWord (w : List Char) : Prop := ∀ c ∈ w, ExpWordChar c
/-- Names. -/
def ExpIdent (w : List Char) : Prop := ∃ c v, w = c :: v ∧ ExpLetter c ∧ ExpWord v

mutual
/-- What may be used as a part of a concatenation, with the spaces after it. -/
inductive ExpTerm : Lang
  | epsilon {s : List Char} : ExpSpace s → ExpTerm ('_' :: s)
  | literal {w s : List Char} : w ≠ [] → ExpWord w → ExpSpace s → ExpTerm ('"' :: w ++ '"' :: s)
  | parens {s e t : List Char} : ExpSpace s → Exp e → ExpSpace t → ExpTerm ('(' :: s ++ e ++ ')' :: t)
  | fix {a n b c s e t : List Char} : ExpSpace a → ExpIdent n → ExpSpace b → ExpSpace c → ExpSpace s → Exp e → ExpSpace t →
      ExpTerm ('[' :: a ++ n ++ b ++ ']' :: c ++ '(' :: s ++ e ++ ')' :: t)
  | ident {n s : List Char} : ExpIdent n → ExpSpace s → ExpTerm (n ++ s)
  | call {n s a l t : List Char} : ExpIdent n → ExpSpace s → ExpSpace a → ExpArgs l → ExpSpace t →
      ExpTerm (n ++ s ++ '(' :: a ++ l ++ ')' :: t)
/-- Arguments, separated by commas; there may be a comma after the last one. -/
inductive ExpArgs : Lang
  | last {e : List Char} : Exp e → ExpArgs e
  | comma {e s : List Char} : Exp e → ExpSpace s → ExpArgs (e ++ ',' :: s)
  | more {e s l : List Char} : Exp e → ExpSpace s → ExpArgs l → ExpArgs (e ++ ',' :: s ++ l)
/-- Terms separated by dots. -/
inductive ExpCat : Lang
  | last {t : List Char} : ExpTerm t → ExpCat t
  | more {t s c : List Char} : ExpTerm t → ExpSpace s → ExpCat c → ExpCat (t ++ '.' :: s ++ c)
/-- Concatenations separated by bars. -/
inductive Exp : Lang
  | last {c : List Char} : ExpCat c → Exp c
  | more {c s e : List Char} : ExpCat c → ExpSpace s → Exp e → Exp (c ++ '|' :: s ++ e)
end

theorem ascii_iff (l : List Char) (p : Char → Prop) [DecidablePred p] (hp : ∀ c, p c → c.toNat < 128) (hl : ∀ c ∈ l, c.toNat < 128)
    (h : ∀ n, n < 128 → (decide (Char.ofNat n ∈ l) = decide (p (Char.ofNat n)))) (c : Char) : c ∈ l ↔ p c := by
  have key : c.toNat < 128 → (c ∈ l ↔ p c) := by
    intro hc
    have := h c.toNat hc
    rw [Char.ofNat_toNat] at this
    exact decide_eq_decide.1 this
  exact ⟨fun hc => (key (hl c hc)).1 hc, fun hc => (key (hp c hc)).2 hc⟩

instance : DecidablePred ExpLetter := fun c => by unfold ExpLetter; infer_instance
instance : DecidablePred ExpWordChar := fun c => by unfold ExpWordChar; infer_instance

theorem char_le_toNat {a b : Char} (h : a ≤ b) : a.toNat ≤ b.toNat := h

theorem xidStart_iff (c : Char) : c ∈ xidStart ↔ ExpLetter c := by
  refine ascii_iff _ _ (fun c h => ?_) (by decide +kernel) (by decide +kernel) c
  rcases h with h | h
  · have := char_le_toNat h.2
    exact Nat.lt_of_le_of_lt this (by decide)
  · have := char_le_toNat h.2
    exact Nat.lt_of_le_of_lt this (by decide)

theorem xidContinue_iff (c : Char) : c ∈ xidStart ++ xidOther ↔ ExpWordChar c := by
  refine ascii_iff _ _ (fun c h => ?_) (by decide +kernel) (by decide +kernel) c
  rcases h with h | h | h
  · have := (xidStart_iff c).2 h
    have h' : ∀ c ∈ xidStart, c.toNat < 128 := by decide +kernel
    exact h' c this
  · have := char_le_toNat h.2
    exact Nat.lt_of_le_of_lt this (by decide)
  · subst h; decide

theorem lang_start (ρ : Nat → Lang) (w : List Char) : startG.lang ρ w ↔ ∃ c, ExpLetter c ∧ w = [c] := by
  refine (lang_chars _ _ _).trans ?_
  simp only [xidStart_iff]

theorem lang_continue (ρ : Nat → Lang) (w : List Char) : continueG.lang ρ w ↔ ∃ c, ExpWordChar c ∧ w = [c] := by
  have : continueG.lang ρ w ↔ (startG.lang ρ w ∨ Gram.langAlt (charsG xidOther) ρ w) := Iff.rfl
  rw [this, lang_start, lang_chars]
  simp only [← xidStart_iff, ← xidContinue_iff, List.mem_append]
  constructor
  · rintro (⟨c, h, e⟩ | ⟨c, h, e⟩)
    · exact ⟨c, .inl h, e⟩
    · exact ⟨c, .inr h, e⟩
  · rintro ⟨c, h | h, e⟩
    · exact .inl ⟨c, h, e⟩
    · exact .inr ⟨c, h, e⟩

theorem lang_ws (ρ : Nat → Lang) (w : List Char) : wsG.lang ρ w ↔ ExpSpace w := by
  have hc : ∀ ρ w, (Gram.alt (charsG ['\n', ' '])).lang ρ w ↔ ∃ c, (c = ' ' ∨ c = '\n') ∧ w = [c] := by
    intro ρ w
    refine (lang_chars _ _ _).trans ?_
    simp only [List.mem_cons, List.not_mem_nil, or_false]
    simp only [or_comm]
  exact (lang_star (fun _ _ _ => (hc _ _).trans (hc _ _).symm) _ _).trans ((SeqOf.congr (hc _)).trans (seqOf_chars _ _))

theorem seq_continue (w : List Char) : SeqOf continueG.language w ↔ ExpWord w :=
  (SeqOf.congr (lang_continue _)).trans (seqOf_chars _ _)

theorem continue_closed : continueG.closedG := fun _ _ _ => (lang_continue _ _).trans (lang_continue _ _).symm

theorem lang_ident (ρ : Nat → Lang) (w : List Char) : identG.lang ρ w ↔ ExpIdent w := by
  constructor
  · rintro ⟨u, v, rfl, hu, u', v', rfl, h, rfl⟩
    obtain ⟨c, hc, rfl⟩ := (lang_start _ _).1 hu
    exact ⟨c, u', by simp, hc, (seq_continue _).1 ((lang_star continue_closed _ _).1 h)⟩
  · rintro ⟨c, v, rfl, hc, hv⟩
    exact ⟨[c], v, rfl, (lang_start _ _).2 ⟨c, hc, rfl⟩, v, [], by simp, (lang_star continue_closed _ _).2 ((seq_continue _).2 hv), rfl⟩

theorem lang_literal (ρ : Nat → Lang) (w : List Char) : literalG.lang ρ w ↔ ∃ v, v ≠ [] ∧ ExpWord v ∧ w = '"' :: v ++ ['"'] := by
  constructor
  · rintro ⟨_, _, rfl, rfl, u, _, rfl, h, _, _, rfl, rfl, rfl⟩
    obtain ⟨a, b, rfl, ha, hb⟩ := (lang_plus continue_closed _ _).1 h
    obtain ⟨c, hc, rfl⟩ := (lang_continue _ _).1 ha
    refine ⟨[c] ++ b, by simp, (seq_continue _).1 (.cons ha hb), by simp⟩
  · rintro ⟨v, hv, hw, rfl⟩
    refine ⟨['"'], v ++ ['"'], rfl, rfl, v, ['"'], rfl, (lang_plus continue_closed _ _).2 ?_, ['"'], [], rfl, rfl, rfl⟩
    cases v with
    | nil => exact absurd rfl hv
    | cons c v =>
      refine ⟨[c], v, rfl, (lang_continue _ _).2 ⟨c, hw c (by simp), rfl⟩, (seq_continue _).2 fun c hc => hw c (by simp [hc])⟩

theorem lang_parens (g : Gram) (ρ : Nat → Lang) (w : List Char) :
    (parensG g).lang ρ w ↔ ∃ s e, ExpSpace s ∧ g.lang ρ e ∧ w = '(' :: s ++ e ++ [')'] := by
  constructor
  · rintro ⟨_, _, rfl, rfl, s, _, rfl, hs, e, _, rfl, he, _, _, rfl, rfl, rfl⟩
    exact ⟨s, e, (lang_ws _ _).1 hs, he, by simp⟩
  · rintro ⟨s, e, hs, he, rfl⟩
    exact ⟨['('], s ++ e ++ [')'], by simp, rfl, s, e ++ [')'], by simp, (lang_ws _ _).2 hs, e, [')'], rfl, he, [')'], [], rfl, rfl, rfl⟩

/-- One level of a list with separators. -/
theorem lang_sep (g : Gram) (c : Char) (ρ : Nat → Lang) (w : List Char) :
    (Gram.cat [g, optG (.cat [.lit [c], wsG, .var 0])]).lang ρ w ↔
      g.lang ρ w ∨ ∃ t s v, g.lang ρ t ∧ ExpSpace s ∧ ρ 0 v ∧ w = t ++ c :: s ++ v := by
  constructor
  · rintro ⟨t, _, rfl, ht, u, _, rfl, hu, rfl⟩
    rcases (lang_opt _ _ _).1 hu with rfl | ⟨_, _, rfl, rfl, s, _, rfl, hs, v, _, rfl, hv, rfl⟩
    · exact .inl (by simpa using ht)
    · exact .inr ⟨t, s, v, ht, (lang_ws _ _).1 hs, hv, by simp⟩
  · rintro (h | ⟨t, s, v, ht, hs, hv, rfl⟩)
    · exact ⟨w, [], by simp, h, [], [], rfl, (lang_opt _ _ _).2 (.inl rfl), rfl⟩
    · exact ⟨t, c :: s ++ v, by simp, ht, c :: s ++ v, [], by simp, (lang_opt _ _ _).2 (.inr ⟨[c], s ++ v, rfl, rfl, s, v, rfl,
        (lang_ws _ _).2 hs, v, [], by simp, hv, rfl⟩), rfl⟩

/-- One level of the arguments. -/
theorem lang_args (g : Gram) (ρ : Nat → Lang) (w : List Char) :
    (Gram.cat [g, optG (.cat [.lit [','], wsG, optG (.var 0)])]).lang ρ w ↔
      g.lang ρ w ∨ (∃ t s, g.lang ρ t ∧ ExpSpace s ∧ w = t ++ ',' :: s) ∨
        ∃ t s v, g.lang ρ t ∧ ExpSpace s ∧ ρ 0 v ∧ w = t ++ ',' :: s ++ v := by
  constructor
  · rintro ⟨t, _, rfl, ht, u, _, rfl, hu, rfl⟩
    rcases (lang_opt _ _ _).1 hu with rfl | ⟨_, _, rfl, rfl, s, _, rfl, hs, v, _, rfl, hv, rfl⟩
    · exact .inl (by simpa using ht)
    · rcases (lang_opt _ _ _).1 hv with rfl | hv
      · exact .inr (.inl ⟨t, s, ht, (lang_ws _ _).1 hs, by simp⟩)
      · exact .inr (.inr ⟨t, s, v, ht, (lang_ws _ _).1 hs, hv, by simp⟩)
  · rintro (h | ⟨t, s, ht, hs, rfl⟩ | ⟨t, s, v, ht, hs, hv, rfl⟩)
    · exact ⟨w, [], by simp, h, [], [], rfl, (lang_opt _ _ _).2 (.inl rfl), rfl⟩
    · exact ⟨t, ',' :: s, by simp, ht, ',' :: s, [], by simp, (lang_opt _ _ _).2 (.inr ⟨[','], s, rfl, rfl, s, [], by simp,
        (lang_ws _ _).2 hs, [], [], by simp, (lang_opt _ _ _).2 (.inl rfl), rfl⟩), rfl⟩
    · exact ⟨t, ',' :: s ++ v, by simp, ht, ',' :: s ++ v, [], by simp, (lang_opt _ _ _).2 (.inr ⟨[','], s ++ v, rfl, rfl, s, v, rfl,
        (lang_ws _ _).2 hs, v, [], by simp, (lang_opt _ _ _).2 (.inr hv), rfl⟩), rfl⟩

/-- One level of a term. -/
theorem lang_term (k : Nat) (ρ : Nat → Lang) (w : List Char) : (termG k).lang ρ w ↔
    (∃ s, ExpSpace s ∧ w = '_' :: s) ∨ (∃ v s, v ≠ [] ∧ ExpWord v ∧ ExpSpace s ∧ w = '"' :: v ++ '"' :: s) ∨
    (∃ s e t, ExpSpace s ∧ ρ k e ∧ ExpSpace t ∧ w = '(' :: s ++ e ++ ')' :: t) ∨
    (∃ a n b c s e t, ExpSpace a ∧ ExpIdent n ∧ ExpSpace b ∧ ExpSpace c ∧ ExpSpace s ∧ ρ k e ∧ ExpSpace t ∧
      w = '[' :: a ++ n ++ b ++ ']' :: c ++ '(' :: s ++ e ++ ')' :: t) ∨
    (∃ n s, ExpIdent n ∧ ExpSpace s ∧ w = n ++ s) ∨
    (∃ n s a l t, ExpIdent n ∧ ExpSpace s ∧ ExpSpace a ∧ (argsG k).lang ρ l ∧ ExpSpace t ∧ w = n ++ s ++ '(' :: a ++ l ++ ')' :: t) := by
  constructor
  · rintro (h | h | h | h | h | h)
    · obtain ⟨_, _, rfl, rfl, s, _, rfl, hs, rfl⟩ := h
      exact .inl ⟨s, (lang_ws _ _).1 hs, by simp⟩
    · obtain ⟨u, _, rfl, hu, s, _, rfl, hs, rfl⟩ := h
      obtain ⟨v, hv, hw, rfl⟩ := (lang_literal _ _).1 hu
      exact .inr (.inl ⟨v, s, hv, hw, (lang_ws _ _).1 hs, by simp⟩)
    · obtain ⟨u, _, rfl, hu, t, _, rfl, ht, rfl⟩ := h
      obtain ⟨s, e, hs, he, rfl⟩ := (lang_parens _ _ _).1 hu
      exact .inr (.inr (.inl ⟨s, e, t, hs, he, (lang_ws _ _).1 ht, by simp⟩))
    · obtain ⟨u, _, rfl, hu, t, _, rfl, ht, rfl⟩ := h
      obtain ⟨_, _, rfl, rfl, a, _, rfl, ha, n, _, rfl, hn, b, _, rfl, hb, _, _, rfl, rfl, c, _, rfl, hc, p, _, rfl, hp, rfl⟩ := hu
      obtain ⟨s, e, hs, he, rfl⟩ := (lang_parens _ _ _).1 hp
      exact .inr (.inr (.inr (.inl ⟨a, n, b, c, s, e, t, (lang_ws _ _).1 ha, (lang_ident _ _).1 hn, (lang_ws _ _).1 hb, (lang_ws _ _).1 hc,
        hs, he, (lang_ws _ _).1 ht, by simp⟩)))
    · obtain ⟨n, _, rfl, hn, s, _, rfl, hs, u, _, rfl, hu, rfl⟩ := h
      rcases (lang_opt _ _ _).1 hu with rfl | ⟨p, _, rfl, hp, t, _, rfl, ht, rfl⟩
      · exact .inr (.inr (.inr (.inr (.inl ⟨n, s, (lang_ident _ _).1 hn, (lang_ws _ _).1 hs, by simp⟩))))
      · obtain ⟨_, _, rfl, rfl, a, _, rfl, ha, l, _, rfl, hl, _, _, rfl, rfl, rfl⟩ := hp
        exact .inr (.inr (.inr (.inr (.inr ⟨n, s, a, l, t, (lang_ident _ _).1 hn, (lang_ws _ _).1 hs, (lang_ws _ _).1 ha, hl,
          (lang_ws _ _).1 ht, by simp⟩))))
    · exact h.elim
  · rintro (⟨s, hs, rfl⟩ | ⟨v, s, hv, hw, hs, rfl⟩ | ⟨s, e, t, hs, he, ht, rfl⟩ | ⟨a, n, b, c, s, e, t, ha, hn, hb, hc, hs, he, ht, rfl⟩ |
      ⟨n, s, hn, hs, rfl⟩ | ⟨n, s, a, l, t, hn, hs, ha, hl, ht, rfl⟩)
    · exact .inl ⟨['_'], s, rfl, rfl, s, [], by simp, (lang_ws _ _).2 hs, rfl⟩
    · exact .inr (.inl ⟨'"' :: v ++ ['"'], s, by simp, (lang_literal _ _).2 ⟨v, hv, hw, rfl⟩, s, [], by simp, (lang_ws _ _).2 hs, rfl⟩)
    · exact .inr (.inr (.inl ⟨'(' :: s ++ e ++ [')'], t, by simp, (lang_parens _ _ _).2 ⟨s, e, hs, he, rfl⟩, t, [], by simp,
        (lang_ws _ _).2 ht, rfl⟩))
    · exact .inr (.inr (.inr (.inl ⟨'[' :: a ++ n ++ b ++ ']' :: c ++ ('(' :: s ++ e ++ [')']), t, by simp,
        ⟨['['], _, rfl, rfl, a, n ++ b ++ ']' :: c ++ ('(' :: s ++ e ++ [')']), by simp, (lang_ws _ _).2 ha,
          n, b ++ ']' :: c ++ ('(' :: s ++ e ++ [')']), by simp, (lang_ident _ _).2 hn, b, ']' :: c ++ ('(' :: s ++ e ++ [')']), by simp,
          (lang_ws _ _).2 hb, [']'], c ++ ('(' :: s ++ e ++ [')']), rfl, rfl, c, '(' :: s ++ e ++ [')'], rfl, (lang_ws _ _).2 hc,
          '(' :: s ++ e ++ [')'], [], by simp, (lang_parens _ _ _).2 ⟨s, e, hs, he, rfl⟩, rfl⟩, t, [], by simp, (lang_ws _ _).2 ht, rfl⟩)))
    · exact .inr (.inr (.inr (.inr (.inl ⟨n, s, rfl, (lang_ident _ _).2 hn, s, [], by simp, (lang_ws _ _).2 hs, [], [], rfl,
        (lang_opt _ _ _).2 (.inl rfl), rfl⟩))))
    · exact .inr (.inr (.inr (.inr (.inl ⟨n, s ++ '(' :: a ++ l ++ ')' :: t, by simp, (lang_ident _ _).2 hn, s, '(' :: a ++ l ++ ')' :: t, by simp,
        (lang_ws _ _).2 hs, '(' :: a ++ l ++ ')' :: t, [], by simp, (lang_opt _ _ _).2 (.inr ⟨'(' :: a ++ l ++ [')'], t, by simp,
          ⟨['('], a ++ l ++ [')'], by simp, rfl, a, l ++ [')'], by simp, (lang_ws _ _).2 ha, l, [')'], rfl, hl, [')'], [], rfl, rfl, rfl⟩,
          t, [], by simp, (lang_ws _ _).2 ht, rfl⟩), rfl⟩))))

theorem exp_of_lang {w : List Char} (h : nibbleExpGram.language w) : Exp w := by
  refine h Exp fun w h => h Exp fun w h => ?_
  have hcat : ∀ w, (catG 1).lang (Lang.push Exp (Lang.push Exp fun _ _ => False)) w → ExpCat w := by
    intro w h
    refine h ExpCat fun w h => ?_
    have hterm : ∀ w, (termG 2).lang (Lang.push ExpCat (Lang.push Exp (Lang.push Exp fun _ _ => False))) w → ExpTerm w := by
      intro w h
      rcases (lang_term _ _ _).1 h with ⟨s, hs, rfl⟩ | ⟨v, s, hv, hw, hs, rfl⟩ | ⟨s, e, t, hs, he, ht, rfl⟩ |
        ⟨a, n, b, c, s, e, t, ha, hn, hb, hc, hs, he, ht, rfl⟩ | ⟨n, s, hn, hs, rfl⟩ | ⟨n, s, a, l, t, hn, hs, ha, hl, ht, rfl⟩
      · exact .epsilon hs
      · exact .literal hv hw hs
      · exact .parens hs he ht
      · exact .fix ha hn hb hc hs he ht
      · exact .ident hn hs
      · refine .call hn hs ha (hl ExpArgs fun w h => ?_) ht
        rcases (lang_args _ _ _).1 h with h | ⟨e, s, he, hs, rfl⟩ | ⟨e, s, l, he, hs, hl, rfl⟩
        · exact .last h
        · exact .comma he hs
        · exact .more he hs hl
    rcases (lang_sep _ _ _ _).1 h with h | ⟨t, s, v, ht, hs, hv, rfl⟩
    · exact .last (hterm _ h)
    · exact .more (hterm _ ht) hs hv
  rcases (lang_sep _ _ _ _).1 h with h | ⟨t, s, v, ht, hs, hv, rfl⟩
  · exact .last (hcat _ h)
  · exact .more (hcat _ ht) hs hv

/-- The languages of the parts of the grammar. -/
def expL : Lang := nibbleExpGram.language
def altL' : Lang := (altG 0).lang (Lang.push expL fun _ _ => False)
def catL' : Lang := (catG 1).lang (Lang.push altL' (Lang.push expL fun _ _ => False))
def termL' : Lang := (termG 2).lang (Lang.push catL' (Lang.push altL' (Lang.push expL fun _ _ => False)))
def argsL' : Lang := (argsG 2).lang (Lang.push catL' (Lang.push altL' (Lang.push expL fun _ _ => False)))

theorem expL_of_alt {w : List Char} (h : altL' w) : expL w := Gram.lang_fix _ _ h
theorem altL_of {w : List Char} (h : expL w) : altL' w := by
  refine h altL' fun w h => ?_
  refine (altG 0).lang_mono (fun k w hw => ?_) w h
  cases k with
  | zero => exact expL_of_alt hw
  | succ k => exact hw

mutual
theorem term_of_exp : ∀ {w : List Char}, ExpTerm w → termL' w
  | _, .epsilon hs => (lang_term _ _ _).2 (.inl ⟨_, hs, rfl⟩)
  | _, .literal hv hw hs => (lang_term _ _ _).2 (.inr (.inl ⟨_, _, hv, hw, hs, rfl⟩))
  | _, .parens hs he ht => (lang_term _ _ _).2 (.inr (.inr (.inl ⟨_, _, _, hs, exp_of_exp he, ht, rfl⟩)))
  | _, .fix ha hn hb hc hs he ht =>
    (lang_term _ _ _).2 (.inr (.inr (.inr (.inl ⟨_, _, _, _, _, _, _, ha, hn, hb, hc, hs, exp_of_exp he, ht, rfl⟩))))
  | _, .ident hn hs => (lang_term _ _ _).2 (.inr (.inr (.inr (.inr (.inl ⟨_, _, hn, hs, rfl⟩)))))
  | _, .call hn hs ha hl ht =>
    (lang_term _ _ _).2 (.inr (.inr (.inr (.inr (.inr ⟨_, _, _, _, _, hn, hs, ha, args_of_exp hl, ht, rfl⟩)))))
theorem args_of_exp : ∀ {w : List Char}, ExpArgs w → argsL' w
  | _, .last he => Gram.lang_fix _ _ ((lang_args _ _ _).2 (.inl (exp_of_exp he)))
  | _, .comma he hs => Gram.lang_fix _ _ ((lang_args _ _ _).2 (.inr (.inl ⟨_, _, exp_of_exp he, hs, rfl⟩)))
  | _, .more he hs hl => Gram.lang_fix _ _ ((lang_args _ _ _).2 (.inr (.inr ⟨_, _, _, exp_of_exp he, hs, args_of_exp hl, rfl⟩)))
theorem cat_of_exp : ∀ {w : List Char}, ExpCat w → catL' w
  | _, .last h => Gram.lang_fix _ _ ((lang_sep _ _ _ _).2 (.inl (term_of_exp h)))
  | _, .more h hs hc => Gram.lang_fix _ _ ((lang_sep _ _ _ _).2 (.inr ⟨_, _, _, term_of_exp h, hs, cat_of_exp hc, rfl⟩))
theorem exp_of_exp : ∀ {w : List Char}, Exp w → expL w
  | _, .last h => expL_of_alt (Gram.lang_fix _ _ ((lang_sep _ _ _ _).2 (.inl (cat_of_exp h))))
  | _, .more h hs he => expL_of_alt (Gram.lang_fix _ _ ((lang_sep _ _ _ _).2 (.inr ⟨_, _, _, cat_of_exp h, hs, altL_of (exp_of_exp he), rfl⟩)))
end

/-- `nibble_exp.nb` accepts the expressions of nibble, as the test writes them. -/
theorem C68_nibble_exp : Builds nibbleExpText Exp := by
  have : nibbleExpGram.language = Exp := funext fun w => propext ⟨exp_of_lang, exp_of_exp⟩
  exact this ▸ nibbleExp_builds

/-- `f ( a , "b".c|_ )` is such an expression; `a..b` is not, since no term starts with a dot. -/
example : Exp "f (a, \"b\".c|_,)".toList := by
  have sp : ∀ {w : List Char}, (w.all fun c => c == ' ') = true → ExpSpace w := fun h c hc =>
    .inl (by simpa using List.all_eq_true.1 h c hc)
  have id : ∀ {c : Char} {v : List Char}, ExpLetter c → (v.all fun c => decide (ExpWordChar c)) = true → ExpIdent (c :: v) :=
    fun hc hv => ⟨_, _, rfl, hc, fun c hc => by simpa using List.all_eq_true.1 hv c hc⟩
  have a : Exp ['a'] := .last (.last (.ident (n := ['a']) (s := []) (id (by decide) rfl) (sp rfl)))
  have b : ExpTerm ['"', 'b', '"'] := .literal (w := ['b']) (s := []) (by simp) (fun c hc => by
    cases List.mem_singleton.1 hc; decide) (sp rfl)
  have c : ExpTerm ['c'] := .ident (n := ['c']) (s := []) (id (by decide) rfl) (sp rfl)
  have e : Exp ['_'] := .last (.last (.epsilon (s := []) (sp rfl)))
  have bc : ExpCat "\"b\".c".toList := .more (s := []) b (sp rfl) (.last c)
  have l : Exp "\"b\".c|_".toList := .more (s := []) bc (sp rfl) e
  exact .last (.last (.call (n := ['f']) (s := [' ']) (a := []) (l := "a, \"b\".c|_,".toList) (t := []) (id (by decide) rfl) (sp rfl) (sp rfl)
    (.more (s := [' ']) a (sp rfl) (.comma (s := []) l (sp rfl))) (sp rfl)))

/-! ## The grammars used inside the repository -/

/-- What the compiler makes of the grammar with the given tokens is a program that compiles, that does what the theorems about
the parser generated from it (`Generates`) say, and whose `Ast::parse_str` accepts exactly the texts of `L`. -/
def BuildsToks (ts : List Tok) (L : Lang) : Prop :=
  ∃ fuel s te st out, parseProgram ts = .ok s ∧ compile heckCasing fuel s = .ok te 0 st out ∧ Generates ts st ∧
    (st.program none 0 out).Compiles ∧
    (∀ text v, (st.program none 0 out).Parses text (.ok v) → Parses st 0 text (.ok (v.tree (st.program none 0 out)))) ∧
    ∀ text, (∃ v, (st.program none 0 out).Parses text (.ok v)) ↔ L text

/-- The entries that become items of the program. -/
def itemName (x : String × NodeF Nat × List String) : Option String :=
  match x.2.1 with
  | .eps => none
  | .box _ => none
  | .bad => none
  | _ => some x.1

/-- The names of the items, fields and variants are distinct. -/
def tableDistinct (tbl : List (String × NodeF Nat × List String)) : Bool :=
  decide ("Ast" :: tbl.filterMap itemName).Nodup && tbl.all fun x => decide x.2.2.Nodup

theorem item_name (s : BState) (e : Entry) : (s.item e).map RItem.name = itemName (e.name, e.node.shape, e.fields) := by
  unfold BState.item itemName
  cases e.node <;> simp only [NodeF.shape, Option.map_none, Option.map_some, RItem.name]
  split <;> rfl

theorem item_parts {s : BState} {e : Entry} {it : RItem} (h : s.item e = some it) (hn : e.fields.Nodup) : it.parts.Nodup := by
  unfold BState.item at h
  split at h
  · cases h
  · cases h
  · cases h
  · cases h; exact List.nodup_nil
  · simp only at h
    split at h
    · cases h; exact List.nodup_nil
    · cases h; exact zip_fst_nodup hn _
  · cases h; exact zip_fst_nodup hn _
  · cases h; exact List.nodup_nil

theorem program_distinct {s : BState} {id : Nat} {out : List Nat} (ho : out.Nodup) (hm : ∀ j, j ∈ out ↔ j < s.data.length)
    (h : tableDistinct s.table = true) : ((s.program none id out).map RItem.name).Nodup ∧ ∀ it ∈ s.program none id out, it.parts.Nodup := by
  unfold tableDistinct at h
  rw [Bool.and_eq_true, decide_eq_true_eq, List.all_eq_true] at h
  obtain ⟨h1, h2⟩ := h
  constructor
  · have hp : out.Perm (List.range s.data.length) :=
      (List.perm_ext_iff_of_nodup ho List.nodup_range).2 fun a => by rw [hm, List.mem_range]
    have hname : s.rootName none = "Ast" := rfl
    unfold BState.program
    rw [List.map_append, List.map_cons, List.map_nil, RItem.name, hname]
    have e1 : ∀ l : List Nat, (l.filterMap fun i => (s.data[i]?).bind s.item).map RItem.name =
        l.filterMap fun i => (s.table[i]?).bind itemName := by
      intro l
      rw [List.map_filterMap]
      congr 1
      funext i
      unfold BState.table
      rw [List.getElem?_map]
      cases s.data[i]? with
      | none => rfl
      | some e => exact item_name s e
    have e2 : ((List.range s.data.length).filterMap fun i => (s.table[i]?).bind itemName) = s.table.filterMap itemName := by
      have hl : s.data.length = s.table.length := by unfold BState.table; simp
      rw [hl]
      generalize s.table = t
      have : t = (List.range t.length).filterMap fun i => t[i]? := by
        clear h1 h2 e1 hp hl
        induction t with
        | nil => rfl
        | cons a t ih =>
          rw [List.length_cons, List.range_succ_eq_map, List.filterMap_cons_some (b := a) (by rfl), List.filterMap_map]
          congr 1
      conv => rhs; rw [this]
      rw [List.filterMap_filterMap]
    rw [e1]
    refine ((List.perm_append_comm.trans (List.Perm.append_left _ ?_)).nodup_iff).2 h1
    rw [← e2]
    exact hp.filterMap _
  · intro it hit
    rcases (mem_program hm).1 hit with ⟨i, e, he, hi⟩ | rfl
    · refine item_parts hi (of_decide_eq_true (h2 (e.name, e.node.shape, e.fields) ?_))
      unfold BState.table
      exact List.mem_map.2 ⟨e, List.mem_of_getElem? he, rfl⟩
    · exact List.nodup_nil

theorem builds_of_table {fuel : Nat} {ts : List Tok} {tbl : List (String × NodeF Nat × List String)} {L : Lang}
    (h : (compileToks fuel ts).map (fun p => (p.1.simple, p.2.table)) = some (true, tbl)) (ht : tableDistinct tbl = true)
    (hL : ∀ st, Generates ts st → ∀ text, (∃ t, Parses st 0 text (.ok t)) ↔ L text) : BuildsToks ts L := by
  cases hc : compileToks fuel ts with
  | none => rw [hc] at h; cases h
  | some p =>
    obtain ⟨te, st⟩ := p
    rw [hc] at h
    simp only [Option.map_some, Option.some.injEq, Prod.mk.injEq] at h
    obtain ⟨h1, rfl⟩ := h
    have hG : Generates ts st := ⟨fuel, te, hc⟩
    obtain ⟨s, out, hs, hcomp⟩ := compileToks_some hc
    have hcomp' := hcomp
    rw [compile_eq] at hcomp'
    obtain ⟨_, _, e', -, -, hE⟩ := backEnd_ok hcomp'
    have hsh : te.shareSafe = true := by
      unfold TE.simple at h1
      rw [Bool.and_eq_true] at h1
      exact h1.1
    have hns := TE.shareSafe_sound hsh
    obtain ⟨out', h5, h6, h7, -⟩ := C38_emits_everything_once hE.code
    obtain ⟨n, out'', h8, h9⟩ := hE.emission
    have hout : out = out' := by
      obtain ⟨_, _, _, _, _, _, hemit⟩ := compile_ok hcomp
      cases emitLoop_det hemit h5
      rfl
    subst hout
    have hC : (st.program none 0 out).Compiles := (C63_compiles_iff hE).2 (program_distinct h6 h7 ht)
    refine ⟨fuel, s, te, st, out, hs, hcomp, hG, hC, fun text v hv => (((C64_same_outcome hE hC text).2.2 v).1 hv).2, fun text => ?_⟩
    obtain ⟨g, hg, hl⟩ := C64_accepts_language hE hC hns
    obtain ⟨g', hg', hl'⟩ := C30_accepts_language hE.compiled hns
    rw [hg] at hg'
    cases hg'
    rw [hl, ← hl', hL st hG]

/-- The parser of the arithmetic benchmark accepts the arithmetic expressions. -/
theorem C68_arith : BuildsToks arithToks fun text => ∃ i : AInput, i.text = text :=
  builds_of_table arith_compiled (by decide +kernel) fun st h text => (C47_syntax_agrees st h text).1

/-- The parser of the JSON benchmark accepts JSON texts in ASCII. -/
theorem C68_json : BuildsToks jsonToks fun text => ∃ p : JPad, p.text = text ∧ p.Ok asciiRules :=
  builds_of_table json_compiled (by decide +kernel) fun _ h text => C56_language h text

/-- The parser of `autonibble` accepts nibble programs. -/
theorem C68_autonibble : BuildsToks autoToks fun text => ∃ p : UProg, p.text = text :=
  builds_of_table auto_compiled (by decide +kernel) fun _ h text => (C44_language h text).1

end Chomp
