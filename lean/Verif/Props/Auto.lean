import Verif.Auto.Agree
import Verif.Grammars.AutoCompiled

/-!
# C44, C45: the front end generated from nibble's own grammar (`/repo/autonibble/src/lib.rs`)

`Generates autoToks st` says that `st` is the parser that the compiler generates for the grammar in `autonibble/src/lib.rs`
(there is one, `auto_generates`); `Parses st 0 text (.ok t)` that this parser turns `text` into `t : Ast`; `autoAst t` is the
conversion `Ast::convert` of autonibble.  The other front end gets the tokens of the text from Rust (`lex`), parses them
(`parseProgram`) and converts the syntax tree (`convStmt`).
-/

namespace Chomp

/-! ## Nibble's own parser does not panic -/

theorem Out.bind_no_panic {α β ε : Type} {o : Out ε α} {f : α → Out ε β} (ho : o ≠ .panic) (hf : ∀ a, f a ≠ .panic) :
    o.bind f ≠ .panic := by
  cases o with
  | ok a => exact hf a
  | err e => exact fun h => nomatch h
  | panic => exact absurd rfl ho
  | oof => exact fun h => nomatch h

theorem parseIdent_no_panic (ts : List Tok) : parseIdent ts ≠ .panic := by
  unfold parseIdent
  split <;> (try split) <;> exact fun h => nomatch h
theorem parseAnyIdent_no_panic (ts : List Tok) : parseAnyIdent ts ≠ .panic := by
  unfold parseAnyIdent
  split <;> exact fun h => nomatch h
theorem parsePunct_no_panic (c : Char) (ts : List Tok) : parsePunct c ts ≠ .panic := by
  unfold parsePunct
  split <;> (try split) <;> exact fun h => nomatch h

theorem parseLamArgs_no_panic : ∀ n ts, parseLamArgs n ts ≠ .panic
  | 0, _ => fun h => nomatch h
  | n + 1, ts => by
    refine Out.bind_no_panic (parseIdent_no_panic ts) fun ⟨i, r⟩ => ?_
    dsimp only
    split
    · exact fun h => nomatch h
    · split
      · exact Out.bind_no_panic (parseLamArgs_no_panic n r) fun _ h => nomatch h
      · exact fun h => nomatch h

theorem parseLetArgs_no_panic : ∀ n ts, parseLetArgs n ts ≠ .panic
  | 0, _ => fun h => nomatch h
  | n + 1, ts => by
    unfold parseLetArgs
    split
    · exact fun h => nomatch h
    · split
      · exact Out.bind_no_panic (parseIdent_no_panic ts) fun ⟨i, r⟩ =>
          Out.bind_no_panic (parseLetArgs_no_panic n r) fun _ h => nomatch h
      · exact fun h => nomatch h

theorem parseGrammar_no_panic : ∀ n, (∀ ts, parseTerm n ts ≠ .panic) ∧ (∀ ts, parseTerms n ts ≠ .panic) ∧
    (∀ ts, parseCall n ts ≠ .panic) ∧ (∀ ts, parseCatItems n ts ≠ .panic) ∧ (∀ ts, parseLabelled n ts ≠ .panic) ∧
    (∀ ts, parseAltItems n ts ≠ .panic) ∧ ∀ ts, parseExpr n ts ≠ .panic := by
  intro n
  induction n with
  | zero => simp [parseTerm, parseTerms, parseCall, parseCatItems, parseLabelled, parseAltItems, parseExpr]
  | succ n ih =>
    obtain ⟨h1, h2, h3, h4, h5, h6, h7⟩ := ih
    refine ⟨fun ts => ?_, fun ts => ?_, fun ts => ?_, fun ts => ?_, fun ts => ?_, fun ts => ?_, fun ts => ?_⟩
    · unfold parseTerm
      split
      · exact fun h => nomatch h
      · exact fun h => nomatch h
      · exact Out.bind_no_panic (h1 _) fun _ h => nomatch h
      · refine Out.bind_no_panic (h7 _) fun ⟨e, l⟩ => ?_
        cases l <;> exact fun h => nomatch h
      · exact fun h => nomatch h
      · exact fun h => nomatch h
    · unfold parseTerms
      split
      · exact Out.bind_no_panic (h1 _) fun _ => Out.bind_no_panic (h2 _) fun _ h => nomatch h
      · exact fun h => nomatch h
    · unfold parseCall
      exact Out.bind_no_panic (h1 _) fun _ => Out.bind_no_panic (h2 _) fun _ h => nomatch h
    · unfold parseCatItems
      refine Out.bind_no_panic (h3 _) fun ⟨x, r⟩ => ?_
      dsimp only
      split
      · exact Out.bind_no_panic (h4 _) fun _ h => nomatch h
      · exact fun h => nomatch h
    · unfold parseLabelled
      refine Out.bind_no_panic (h4 _) fun ⟨x, r⟩ => ?_
      dsimp only
      split
      · exact Out.bind_no_panic (parseAnyIdent_no_panic _) fun _ h => nomatch h
      · exact fun h => nomatch h
    · unfold parseAltItems
      refine Out.bind_no_panic (h5 _) fun ⟨x, r⟩ => ?_
      dsimp only
      split
      · exact Out.bind_no_panic (h6 _) fun _ h => nomatch h
      · exact fun h => nomatch h
    · unfold parseExpr
      split
      · exact Out.bind_no_panic (parseLamArgs_no_panic _ _) fun _ => Out.bind_no_panic (parsePunct_no_panic _ _) fun _ =>
          Out.bind_no_panic (h6 _) fun _ h => nomatch h
      · exact Out.bind_no_panic (h6 _) fun _ h => nomatch h

theorem parseStmt_no_panic : ∀ n ts, parseStmt n ts ≠ .panic
  | 0, _ => fun h => nomatch h
  | n + 1, ts => by
    have he := (parseGrammar_no_panic n).2.2.2.2.2.2
    unfold parseStmt
    split
    · exact Out.bind_no_panic (parseAnyIdent_no_panic _) fun _ => Out.bind_no_panic (parseLetArgs_no_panic _ _) fun _ =>
        Out.bind_no_panic (parsePunct_no_panic _ _) fun _ => Out.bind_no_panic (he _) fun _ =>
          Out.bind_no_panic (parsePunct_no_panic _ _) fun _ => Out.bind_no_panic (parseStmt_no_panic n _) fun _ h => nomatch h
    · exact Out.bind_no_panic (he _) fun _ => Out.bind_no_panic (parsePunct_no_panic _ _) fun _ h => nomatch h
    · exact fun h => nomatch h

/-- **C14.** For every sequence of tokens nibble's parser returns a syntax tree or an error. -/
theorem C14_parser_no_panic (ts : List Tok) : parseProgram ts ≠ .panic :=
  Out.bind_no_panic (parseStmt_no_panic _ _) fun ⟨_, r⟩ => by cases r <;> exact fun h => nomatch h

/-! ## The two front ends -/

/-- The outcomes of the two conversions are the same: the same expression except that autonibble does not name the goal
`Ast`, or the same error.  Spans are ignored; names are compared as strings. -/
def SameOutcome : Conv NE → Conv NE → Prop
  | some (.ok e, _), some (.ok e', _) => e.unspan = e'.nameGoal.unspan
  | some (.error x, _), some (.error x', _) => x.unspan = x'.unspan
  | _, _ => False

/-- There is a parser generated from the grammar. -/
theorem auto_generates : ∃ st, Generates autoToks st := (generates_table auto_compiled).1

theorem auto_parses {st : BState} (h : Generates autoToks st) (text : List Char) (t : Tree) :
    Parses st 0 text (.ok t) ↔ ∃ p : UProg, t = p.tree ∧ p.text = text := by
  rw [((generates_table auto_compiled).2 st h).2.1]
  show UV 0 t ∧ t.display = text ↔ _
  rw [uprog_iff]
  constructor
  · rintro ⟨⟨p, rfl⟩, h⟩
    exact ⟨p, rfl, by rw [← h, p.tree_display]⟩
  · rintro ⟨p, rfl, rfl⟩
    exact ⟨⟨p, rfl⟩, p.tree_display⟩

/-- **C44.** The texts that the generated parser accepts are those of the small description `UProg` of nibble's
concrete syntax, and it always ends. -/
theorem C44_language {st : BState} (h : Generates autoToks st) (text : List Char) :
    ((∃ t, Parses st 0 text (.ok t)) ↔ ∃ p : UProg, p.text = text) ∧
      ((∃ t, Parses st 0 text (.ok t)) ∨ ∃ err, Parses st 0 text (.err err)) := by
  refine ⟨⟨fun ⟨t, ht⟩ => ?_, fun ⟨p, hp⟩ => ⟨p.tree, (auto_parses h _ _).2 ⟨p, rfl, hp⟩⟩⟩,
    ((generates_table auto_compiled).2 st h).2.2 text⟩
  obtain ⟨p, _, hp⟩ := (auto_parses h _ _).1 ht
  exact ⟨p, hp⟩

theorem ConvErr.unspan_unspan (e : ConvErr) : e.unspan.unspan = e.unspan := by cases e <;> rfl

/-- **C44.** If nibble's own parser accepts the tokens of a text that the generated parser accepts, the two front ends have
the same outcome. -/
theorem C44_same_outcome {st : BState} (h : Generates autoToks st) {text : List Char} {t : Tree} (ht : Parses st 0 text (.ok t))
    {ts : List Tok} (hts : lex text = .ok ts) {s : Stmt} (hs : parseProgram ts = .ok s) :
    SameOutcome (convStmt s []) (autoAst t []) := by
  obtain ⟨p, rfl, rfl⟩ := (auto_parses h _ _).1 ht
  rw [lex_prog] at hts
  split at hts
  · rename_i hok
    cases hts
    have := parse_uprog hs
    subst this
    rcases agree_uprog p hok with ⟨a, b, c, h1, h2, h3, h4⟩ | ⟨e, c, h1, h2⟩
    · rw [h1, h2]
      show a.unspan = b.nameGoal.unspan
      rw [← h3, NE.unspan_unspan]
    · rw [h1, h2]
      exact (ConvErr.unspan_unspan e).symm
  · cases hts

/-- **C44.** The tokens of a text that the generated parser accepts: there is no comment and no token that `lex` leaves out.
If the text has no tokens (this is so if some escape in a literal denotes no character), the conversion of autonibble
fails as well. -/
theorem C44_tokens {st : BState} (h : Generates autoToks st) {text : List Char} {t : Tree} (ht : Parses st 0 text (.ok t)) :
    (∃ ts, lex text = .ok ts) ∨ (lex text = .error .bad ∧ ∀ e c, autoAst t [] ≠ some (.ok e, c)) := by
  obtain ⟨p, rfl, rfl⟩ := (auto_parses h _ _).1 ht
  rw [lex_prog]
  cases hok : p.stmt.ok with
  | true => exact .inl ⟨_, if_pos rfl⟩
  | false => exact .inr ⟨by simp, fail hok⟩
where
  fail {p : UProg} (hok : p.stmt.ok = false) : ∀ e c, autoAst p.tree [] ≠ some (.ok e, c) := fails_uprog p hok []

/-- **C44.** Nibble's own parser accepts these tokens unless a parameter is a keyword of Rust. -/
theorem C44_parameters (p : UProg) {ts : List Tok} (hts : lex p.text = .ok ts) :
    (∃ s, parseProgram ts = .ok s) ↔ ∀ x ∈ p.stmt.params, x ∉ keywords := by
  rw [lex_prog] at hts
  split at hts
  · cases hts
    exact parses_uprog p.stmt
  · cases hts

mutual
theorem NE.unspan_erase : ∀ e : NE, e.unspan.erase = e.erase
  | .eps i => by simp [NE.unspan, NE.erase]
  | .lit i s => by simp [NE.unspan, NE.erase]
  | .cat i f r => by simp only [NE.unspan, NE.erase, NE.unspan_erase f, NE.unspanP_erase r]
  | .alt i f r => by simp only [NE.unspan, NE.erase, NE.unspan_erase f, NE.unspanP_erase r]
  | .fix i b => by simp only [NE.unspan, NE.erase, NE.unspan_erase b]
  | .var i n => by simp [NE.unspan, NE.erase]
  | .call i o a => by simp only [NE.unspan, NE.erase, NE.unspan_erase o, NE.unspanL_erase a]
  | .lam i a b => by simp only [NE.unspan, NE.erase, NE.unspan_erase b, List.length_map]
  | .letE i n b c => by simp only [NE.unspan, NE.erase, NE.unspan_erase b, NE.unspan_erase c]
theorem NE.unspanP_erase : ∀ l : List (Nat × NE), NE.eraseP (NE.unspanP l) = NE.eraseP l
  | [] => by simp only [NE.unspanP, NE.eraseP]
  | (_, e) :: l => by simp only [NE.unspanP, NE.eraseP, NE.unspan_erase e, NE.unspanP_erase l]
theorem NE.unspanL_erase : ∀ l : List NE, NE.eraseL (NE.unspanL l) = NE.eraseL l
  | [] => by simp only [NE.unspanL, NE.eraseL]
  | e :: l => by simp only [NE.unspanL, NE.eraseL, NE.unspan_erase e, NE.unspanL_erase l]
end

theorem NE.setInfo_erase (i : Info) (e : NE) : (e.setInfo i).erase = e.erase := by cases e <;> simp [NE.setInfo, NE.erase]

theorem NE.nameGoal_erase : ∀ e : NE, e.nameGoal.erase = e.erase
  | .letE i n b c => by simp only [NE.nameGoal, NE.erase, NE.nameGoal_erase c]
  | .eps i => NE.setInfo_erase _ _
  | .lit i s => NE.setInfo_erase _ _
  | .cat i f r => NE.setInfo_erase _ _
  | .alt i f r => NE.setInfo_erase _ _
  | .fix i b => NE.setInfo_erase _ _
  | .var i n => NE.setInfo_erase _ _
  | .call i o a => NE.setInfo_erase _ _
  | .lam i a b => NE.setInfo_erase _ _

/-- **C44.** In particular, when both succeed the expressions differ in nothing but names and spans: they mean the same
language (`NE.grammar`, `NE.meaning` look at nothing else), and when one succeeds so does the other. -/
theorem C44_same_meaning {st : BState} (h : Generates autoToks st) {text : List Char} {t : Tree} (ht : Parses st 0 text (.ok t))
    {ts : List Tok} (hts : lex text = .ok ts) {s : Stmt} (hs : parseProgram ts = .ok s) :
    (∀ e c, convStmt s [] = some (.ok e, c) → ∃ e' c', autoAst t [] = some (.ok e', c') ∧ e'.erase = e.erase) ∧
      ∀ e' c', autoAst t [] = some (.ok e', c') → ∃ e c, convStmt s [] = some (.ok e, c) ∧ e'.erase = e.erase := by
  have hso := C44_same_outcome h ht hts hs
  constructor
  · intro e c he
    rw [he] at hso
    match ha : autoAst t [], hso with
    | some (.ok e', c'), hso =>
      refine ⟨e', c', rfl, ?_⟩
      have : e.unspan = e'.nameGoal.unspan := hso
      rw [← NE.unspan_erase e, this, NE.unspan_erase, NE.nameGoal_erase]
  · intro e' c' he
    rw [he] at hso
    match ha : convStmt s [], hso with
    | some (.ok e, c), hso =>
      refine ⟨e, c, rfl, ?_⟩
      have : e.unspan = e'.nameGoal.unspan := hso
      rw [← NE.unspan_erase e, this, NE.unspan_erase, NE.nameGoal_erase]

/-! ## C45 -/

/-- **C45.** Every character of a literal, written as itself or with an escape, is decoded to the character it denotes; decoding
panics exactly if it denotes none.  Missing: it does panic for some escapes that the grammar accepts
(`C45_counterexample`). -/
theorem C45_decodes_partial (c : UChar) : autoChar c.tree = c.denotes := c.autoChar

/-- **C45.** Which escapes make the conversion panic: `\u{…}` with a surrogate or a number that is too big. -/
theorem C45_panics_iff (c : UChar) : autoChar c.tree = none ↔
    ∃ d ds h, c = .unicode d ds h ∧ (0xd800 ≤ hexNum (d :: ds) ∧ hexNum (d :: ds) ≤ 0xdfff ∨ 0x110000 ≤ hexNum (d :: ds)) := by
  rw [c.autoChar]
  cases c with
  | plain k => simp [UChar.denotes]
  | ascii k =>
    obtain ⟨c, hc⟩ := ascii_some k
    simp [UChar.denotes, hc]
  | byte o k => simp [UChar.denotes]
  | unicode d ds h =>
    have hv : (hexNum (d :: ds)).isValidChar ↔
        ¬ (0xd800 ≤ hexNum (d :: ds) ∧ hexNum (d :: ds) ≤ 0xdfff ∨ 0x110000 ≤ hexNum (d :: ds)) := by
      unfold Nat.isValidChar
      omega
    constructor
    · intro hn
      refine ⟨d, ds, h, rfl, ?_⟩
      simp only [UChar.denotes] at hn
      split at hn
      · cases hn
      · rename_i hx
        rw [hv] at hx
        exact Decidable.not_not.1 hx
    · rintro ⟨d', ds', h', heq, hx⟩
      cases heq
      simp only [UChar.denotes]
      rw [if_neg fun h => hv.1 h hx]

/-- The escape of a surrogate. -/
def surrogate : UChar :=
  .unicode (⟨13, by decide⟩ : Pick hexChars) [⟨8, by decide⟩, ⟨0, by decide⟩, ⟨0, by decide⟩] (by decide)

/-- A program with one literal. -/
def litProg (c : UChar) : UProg := ⟨[], .goal ⟨5, by decide⟩ [] (.alt (.one (.plain (.one (.one (.lit c [])))))) []⟩

/-- **C45.** `match "\u{d800}";` is accepted by the generated parser, and converting the result panics. -/
theorem C45_counterexample {st : BState} (h : Generates autoToks st) :
    ∃ t, Parses st 0 "match \"\\u{d800}\";".toList (.ok t) ∧ autoAst t [] = none := by
  refine ⟨(litProg surrogate).tree, (auto_parses h _ _).2 ⟨litProg surrogate, rfl, by decide +kernel⟩, ?_⟩
  rw [UProg.tree, autoAst_skip]
  decide +kernel

/-! ## Examples -/

/-- `match /if/ if;` -/
def keywordProg : UProg :=
  let i : UIdent := ⟨⟨8, by decide⟩, [.start ⟨5, by decide⟩]⟩
  ⟨[], .goal ⟨5, by decide⟩ [] (.lam [] (.one i) [⟨5, by decide⟩] (.one (.plain (.one (.one (.var i)))))) []⟩

/-- **C44.** The two front ends do not accept the same texts: a parameter of a lambda can be a keyword in autonibble. -/
theorem C44_keyword_parameter {st : BState} (h : Generates autoToks st) :
    (∃ t e c, Parses st 0 "match /if/ if;".toList (.ok t) ∧ autoAst t [] = some (.ok e, c)) ∧
      ∃ ts, lex "match /if/ if;".toList = .ok ts ∧ parseProgram ts = .err () := by
  have ht : keywordProg.text = "match /if/ if;".toList := by decide +kernel
  have hok : keywordProg.stmt.ok = true := rfl
  have hl := lex_prog keywordProg
  rw [hok, if_pos rfl, ht] at hl
  refine ⟨?_, _, hl, ?_⟩
  · refine ⟨keywordProg.tree, ?_⟩
    rcases agree_uprog keywordProg hok with ⟨a, b, c, h1, h2, _⟩ | ⟨e, c, h1, _⟩
    · exact ⟨b, _, (auto_parses h _ _).2 ⟨keywordProg, rfl, ht⟩, h2⟩
    · cases h1
  · cases hp : parseProgram keywordProg.stmt.abs.toks with
    | ok x => exact absurd ((parses_uprog _).1 ⟨x, hp⟩ "if" (by decide +kernel)) (by decide +kernel)
    | err e => rfl
    | panic => exact absurd hp (C14_parser_no_panic _)
    | oof => exact absurd hp (C14_parser_terminates _)

end Chomp
