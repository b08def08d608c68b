import Verif.Gram.Productive
import Verif.Props.Viable
import Verif.Props.Auto
import Verif.Props.ArithErr
import Verif.Props.ArithNibble
import Verif.Props.JsonNibble
import Verif.Props.Text

/-!
# C89: errors are reported as early as possible

For grammars in which every fix point matches something — a condition that is computed — generated parsers report the first error, so
where an error is reported depends only on the language, not on how the grammar is written.  This is the case for the grammars of
the benchmarks, but not for that of autonibble.
-/

namespace Chomp

/-! ## Specification -/

/-- `p` is the beginning of an accepted text. -/
def Begins (accepted : List Char → Prop) (p : List Char) : Prop := ∃ r, accepted (p ++ r)

/-- The error at `pos` is the first one: before it the text is the beginning of an accepted text, but with the next character it is not,
or there is no next character and the text is not accepted. -/
def FirstErrorAt (accepted : List Char → Prop) (text : List Char) (n : Nat) (pos : LineCol) : Prop :=
  ∃ p rest, text = p ++ rest ∧ p.length = n ∧ pos = ⟨specLine text n, specCol text n⟩ ∧ Begins accepted p ∧ ¬ accepted text ∧
    ∀ c r, rest = c :: r → ¬ Begins accepted (p ++ [c])

/-- Every fix point of the grammar of a compiled program matches something, as computed. -/
def TE.productive (te : TE) : Bool := te.gram.productive []

/-! ## Generic statements -/

theorem Begins.mono {A : List Char → Prop} {p q : List Char} (h : Begins A (p ++ q)) : Begins A p := by
  obtain ⟨r, h⟩ := h
  exact ⟨q ++ r, by rwa [List.append_assoc] at h⟩

theorem begins_iff {A : List Char → Prop} {p : List Char} : Begins A p ↔ ∃ v, A v ∧ p <+: v := by
  constructor
  · rintro ⟨r, h⟩
    exact ⟨_, h, _, rfl⟩
  · rintro ⟨_, h, r, rfl⟩
    exact ⟨r, h⟩

theorem FirstErrorAt.congr {A B : List Char → Prop} (h : ∀ w, A w ↔ B w) {text : List Char} {n : Nat} {pos : LineCol}
    (h' : FirstErrorAt A text n pos) : FirstErrorAt B text n pos := by
  have : A = B := funext fun w => propext (h w)
  rwa [← this]

theorem FirstErrorAt.le {A : List Char → Prop} {text : List Char} {n n' : Nat} {pos pos' : LineCol} (h : FirstErrorAt A text n pos)
    (h' : FirstErrorAt A text n' pos') : n ≤ n' := by
  obtain ⟨p, rest, h1, h2, -, h3, h4, h5⟩ := h
  obtain ⟨p', rest', h1', h2', -, h3', -, h5'⟩ := h'
  rcases Nat.lt_or_ge n' n with hlt | hge
  · have hp : p' <+: p := by
      have e : p' ++ rest' = p ++ rest := by rw [← h1', h1]
      exact List.prefix_of_prefix_length_le (⟨rest', e⟩ : p' <+: p ++ rest) ⟨rest, rfl⟩ (by omega)
    obtain ⟨q, rfl⟩ := hp
    cases q with
    | nil => rw [List.append_nil] at h2; omega
    | cons c q =>
      have : rest' = c :: (q ++ rest) := by
        have e : p' ++ rest' = p' ++ (c :: (q ++ rest)) := by rw [← h1', h1]; simp
        exact List.append_cancel_left e
      refine absurd ?_ (h5' c _ this)
      have h6 : Begins A ((p' ++ [c]) ++ q) := by simpa using h3
      exact h6.mono
  · exact hge

/-- **C89** (the first error is a matter of the language). There is at most one place of which the specification speaks. -/
theorem C89_first_error_unique {A : List Char → Prop} {text : List Char} {n n' : Nat} {pos pos' : LineCol} (h : FirstErrorAt A text n pos)
    (h' : FirstErrorAt A text n' pos') : n = n' ∧ pos = pos' := by
  have hn : n = n' := Nat.le_antisymm (h.le h') (h'.le h)
  subst hn
  obtain ⟨_, _, _, _, h1, _⟩ := h
  obtain ⟨_, _, _, _, h2, _⟩ := h'
  exact ⟨rfl, by rw [h1, h2]⟩

/-- **C89** (the condition). Whether every fix point of a grammar matches something is computed by `TE.productive`. -/
theorem C89_check (te : TE) : te.productive = true ↔ te.gram.NoEmptyParts := te.gram.productive_iff_noEmptyParts

/-- **C89.** If every fix point of the grammar matches something, a generated parser reports the first error of every text that is not
a word: before the reported position the text is the beginning of a word, with the next character it is not. -/
theorem C89_reports_first_error {e : NE} {te : TE} {s : BState} {id : Nat} (h : Compiled e te s id) (hns : NoSharingConflict te)
    (hne : te.productive = true) (text : List Char) (err : ParseError) (hp : Parses s id text (.err err)) :
    ∃ n, FirstErrorAt te.gram.language text n err.position := by
  have hrej : ¬ te.gram.language text := fun hl => by
    obtain ⟨t, ht⟩ := (h.accepts hns text).2 hl
    exact hp.not_ok ⟨t, ht⟩
  cases err with
  | take err =>
    obtain ⟨p, rest, h1, h2, -, h4, h5, -⟩ := C55_errors_truthful h hns ((C89_check te).1 hne) text err hp
    exact ⟨p.length, p, rest, h1, rfl, h2, begins_iff.2 h4, hrej, fun c r hr hb => h5 c r hr (begins_iff.1 hb)⟩
  | inputContinues pos =>
    obtain ⟨p, c, r, h1, h2, h3, h4⟩ := C55_input_continues h hns text pos hp
    refine ⟨p.length, p, c :: r, h1, rfl, h2, ⟨[], by rwa [List.append_nil]⟩, hrej, fun c' r' hr hb => ?_⟩
    cases hr
    exact h4 (begins_iff.1 hb)

/-- **C89** (grammars of the same language). Parsers generated from two grammars of the same language, however they are written, report
errors at the same places. -/
theorem C89_same_language_same_places {e e' : NE} {te te' : TE} {s s' : BState} {id id' : Nat} (h : Compiled e te s id)
    (h' : Compiled e' te' s' id') (hns : NoSharingConflict te) (hns' : NoSharingConflict te') (hne : te.productive = true)
    (hne' : te'.productive = true) (hl : ∀ w, te.gram.language w ↔ te'.gram.language w) (text : List Char) (err err' : ParseError)
    (hp : Parses s id text (.err err)) (hp' : Parses s' id' text (.err err')) : err.position = err'.position := by
  obtain ⟨n, h1⟩ := C89_reports_first_error h hns hne text err hp
  obtain ⟨n', h2⟩ := C89_reports_first_error h' hns' hne' text err' hp'
  exact (C89_first_error_unique (h1.congr hl) h2).2

/-- **C89** (never too early). Whether or not the fix points match something, an error is not reported before the first one: everything
that the text has in common with a word is read. -/
theorem C89_never_too_early {e : NE} {te : TE} {s : BState} {id : Nat} (h : Compiled e te s id) (hns : NoSharingConflict te)
    (text : List Char) (err : ParseError) (hp : Parses s id text (.err err)) :
    ∃ n, n ≤ text.length ∧ err.position = ⟨specLine text n, specCol text n⟩ ∧
      ∀ q, q <+: text → Begins te.gram.language q → q.length ≤ n := by
  have key : ∀ p rest, text = p ++ rest → (∀ c r, rest = c :: r → ¬ Begins te.gram.language (p ++ [c])) →
      ∀ q, q <+: text → Begins te.gram.language q → q.length ≤ p.length := by
    rintro p rest rfl hr q ⟨r, hq⟩ hb
    rcases Nat.lt_or_ge p.length q.length with hlt | hge
    · obtain ⟨x, rfl⟩ := List.prefix_of_prefix_length_le (⟨rest, rfl⟩ : p <+: p ++ rest) ⟨r, hq⟩ (by omega)
      cases x with
      | nil => simp at hlt
      | cons c x =>
        have e : rest = c :: (x ++ r) := by
          rw [List.append_assoc] at hq
          exact (List.append_cancel_left hq).symm
        refine absurd ?_ (hr c _ e)
        have : Begins te.gram.language ((p ++ [c]) ++ x) := by simpa using hb
        exact this.mono
    · exact hge
  cases err with
  | inputContinues pos =>
    obtain ⟨p, c, r, h1, h2, h3, h4⟩ := C55_input_continues h hns text pos hp
    refine ⟨p.length, by rw [h1]; simp, h2, key p (c :: r) h1 fun c' r' hr hb => ?_⟩
    cases hr
    exact h4 (begins_iff.1 hb)
  | take err =>
    obtain ⟨q, h1, h2⟩ := Parses.takes.1 hp
    cases q with
    | ok t w' =>
      simp only [parseWith] at h2
      rcases hpk : w'.peek with ⟨_ | c, w''⟩ <;> rw [hpk] at h2 <;> cases h2
    | panic => cases h2
    | oof => cases h2
    | err e' w' =>
      cases h2
      have h1' := h1
      obtain ⟨_, n, hn⟩ := h1'
      obtain ⟨⟨p, h3⟩, h4⟩ := run_err n id _ _ _ hn
      obtain ⟨h5, h6⟩ := h4.spec
      have h8 : text = p ++ w'.rem := by simpa using h3.1
      have h9 : p.length ≤ text.length := by rw [h8]; simp
      refine ⟨p.length, h9, by rw [← h3.pos_spec]; exact h5, key p w'.rem h8 ?_⟩
      intro c r hr hb
      obtain ⟨v, hv, hx⟩ := begins_iff.1 hb
      exact no_extension h hns h1 (by simp [Res.Ends, hr]) (.inl ⟨_, rfl⟩) h3 hr v hv hx

/-- **C89** (earliest). Of all parsers for a language, those whose fix points match something report errors first. -/
theorem C89_productive_is_earliest {e e' : NE} {te te' : TE} {s s' : BState} {id id' : Nat} (h : Compiled e te s id)
    (h' : Compiled e' te' s' id') (hns : NoSharingConflict te) (hns' : NoSharingConflict te') (hne : te.productive = true)
    (hl : ∀ w, te.gram.language w ↔ te'.gram.language w) (text : List Char) (err err' : ParseError)
    (hp : Parses s id text (.err err)) (hp' : Parses s' id' text (.err err')) :
    ∃ n n', n ≤ n' ∧ n' ≤ text.length ∧ err.position = ⟨specLine text n, specCol text n⟩ ∧
      err'.position = ⟨specLine text n', specCol text n'⟩ := by
  obtain ⟨n, p, rest, h1, h2, h3, h4, -⟩ := C89_reports_first_error h hns hne text err hp
  obtain ⟨n', h5, h6, h7⟩ := C89_never_too_early h' hns' text err' hp'
  refine ⟨n, n', ?_, h5, h3, h6⟩
  rw [← h2]
  refine h7 p ⟨rest, h1.symm⟩ ?_
  obtain ⟨r, hr⟩ := h4
  exact ⟨r, (hl _).1 hr⟩

private def ei : Info := ⟨none, 0⟩
private def el (l : List Char) : NE := .lit ei l
private def emu (b : NE) : NE := .fix ei (.lam ei [.newVariable (.spanless "x")] b)
private def ecat (a : NE) (l : List NE) : NE := .cat ei a (l.map fun b => (0, b))
private def ealt (a : NE) (l : List NE) : NE := .alt ei a (l.map fun b => (0, b))

/-- **C89** (the condition is needed). `"b" | !(/x/ "a" . x)` and `"b"` have the same language, but on `ac` their parsers report errors at
different places: the first one at the `c`, the second one at the `a`. -/
theorem C89_needs_productive : ∃ e te s id e' te' s' id', Compiled e te s id ∧ Compiled e' te' s' id' ∧ NoSharingConflict te ∧
    NoSharingConflict te' ∧ te.productive = false ∧ te'.productive = true ∧ (∀ w, te.gram.language w ↔ te'.gram.language w) ∧
    Parses s id ['a', 'c'] (.err (.take (.badString ⟨1, 1⟩ ['c'] ['a']))) ∧
    Parses s' id' ['a', 'c'] (.err (.take (.badString ⟨1, 0⟩ ['a'] ['b']))) := by
  refine ⟨ealt (el ['b']) [emu (ecat (el ['a']) [.var ei 0])], _, _, _, el ['b'], _, _, _, ⟨⟨8, rfl⟩, ⟨some, some⟩, rfl⟩,
    ⟨⟨8, rfl⟩, ⟨some, some⟩, rfl⟩, TE.shareSafe_sound (by decide), TE.shareSafe_sound (by decide), by decide, by decide, ?_,
    ⟨by simp, 20, rfl⟩, ⟨by simp, 20, rfl⟩⟩
  intro w
  constructor
  · rintro (hw | hw | hw)
    · exact hw
    · exact (hw (fun _ => False) (by
        rintro w ⟨_, _, _, _, _, _, _, h, _⟩
        exact h)).elim
    · exact hw.elim
  · exact .inl

/-- Two grammars of one language, `"a" . "b"` and `"ab"`, with different errors at the same place. -/
example : ∃ e te s id e' te' s' id', Compiled e te s id ∧ Compiled e' te' s' id' ∧ NoSharingConflict te ∧
    NoSharingConflict te' ∧ te.productive = true ∧ te'.productive = true ∧ (∀ w, te.gram.language w ↔ te'.gram.language w) ∧
    Parses s id ['a', 'c'] (.err (.take (.badString ⟨1, 1⟩ ['c'] ['b']))) ∧
    Parses s' id' ['a', 'c'] (.err (.take (.badString ⟨1, 1⟩ ['a', 'c'] ['a', 'b']))) := by
  refine ⟨ecat (el ['a']) [el ['b']], _, _, _, el ['a', 'b'], _, _, _, ⟨⟨8, rfl⟩, ⟨some, some⟩, rfl⟩,
    ⟨⟨8, rfl⟩, ⟨some, some⟩, rfl⟩, TE.shareSafe_sound (by decide), TE.shareSafe_sound (by decide), by decide, by decide, ?_,
    ⟨by simp, 20, rfl⟩, ⟨by simp, 20, rfl⟩⟩
  intro w
  constructor
  · rintro ⟨u, v, rfl, hu, v1, v2, rfl, hv, hv2⟩
    cases hu; cases hv; cases hv2
    rfl
  · intro hw
    cases hw
    exact ⟨['a'], ['b'], rfl, rfl, ['b'], [], rfl, rfl, rfl⟩

/-! ## The grammars of the repository -/

/-- A grammar whose tokens compile to a table, and whose fix points match something: its parser reports the first error. -/
theorem generates_first_error {fuel : Nat} {ts : List Tok} {tbl : List (String × NodeF Nat × List String)}
    (h : (compileToks fuel ts).map (fun p => (p.1.simple, p.2.table)) = some (true, tbl))
    (hpr : (compileToks fuel ts).map (fun p => p.1.productive) = some true) {st : BState} (hst : Generates ts st) (text : List Char)
    (err : ParseError) (hp : Parses st 0 text (.err err)) :
    ∃ n, FirstErrorAt (fun w => ∃ t, Parses st 0 w (.ok t)) text n err.position := by
  cases hc : compileToks fuel ts with
  | none => rw [hc] at h; cases h
  | some p =>
    obtain ⟨te, st'⟩ := p
    rw [hc] at h hpr
    simp only [Option.map_some, Option.some.injEq, Prod.mk.injEq] at h hpr
    obtain ⟨h1, rfl⟩ := h
    have := hst.unique hc
    subst this
    obtain ⟨s, out, hs, hcomp⟩ := compileToks_some hc
    obtain ⟨e, c, e', h2, h3, h4, h5⟩ := compile_ok hcomp
    have hsh : te.shareSafe = true := by
      unfold TE.simple at h1
      rw [Bool.and_eq_true] at h1
      exact h1.1
    have hns := TE.shareSafe_sound hsh
    obtain ⟨n, h6⟩ := C89_reports_first_error h4 hns hpr text err hp
    exact ⟨n, h6.congr fun w => (h4.accepts hns w).symm⟩

/-- The parser of a grammar whose tokens compile to a table reports no error before the first one. -/
theorem generates_never_too_early {fuel : Nat} {ts : List Tok} {tbl : List (String × NodeF Nat × List String)}
    (h : (compileToks fuel ts).map (fun p => (p.1.simple, p.2.table)) = some (true, tbl)) {st : BState} (hst : Generates ts st)
    (text : List Char) (err : ParseError) (hp : Parses st 0 text (.err err)) :
    ∃ n, n ≤ text.length ∧ err.position = ⟨specLine text n, specCol text n⟩ ∧
      ∀ q, q <+: text → Begins (fun w => ∃ t, Parses st 0 w (.ok t)) q → q.length ≤ n := by
  cases hc : compileToks fuel ts with
  | none => rw [hc] at h; cases h
  | some p =>
    obtain ⟨te, st'⟩ := p
    rw [hc] at h
    simp only [Option.map_some, Option.some.injEq, Prod.mk.injEq] at h
    obtain ⟨h1, rfl⟩ := h
    have := hst.unique hc
    subst this
    obtain ⟨s, out, hs, hcomp⟩ := compileToks_some hc
    obtain ⟨e, c, e', h2, h3, h4, h5⟩ := compile_ok hcomp
    have hsh : te.shareSafe = true := by
      unfold TE.simple at h1
      rw [Bool.and_eq_true] at h1
      exact h1.1
    have hns := TE.shareSafe_sound hsh
    obtain ⟨n, h6, h7, h8⟩ := C89_never_too_early h4 hns text err hp
    refine ⟨n, h6, h7, fun q hq hb => h8 q hq ?_⟩
    obtain ⟨r, hr⟩ := hb
    exact ⟨r, (h4.accepts hns _).1 hr⟩

set_option maxHeartbeats 0 in
set_option maxRecDepth 100000 in
theorem arith_productive : (compileToks 60 arithToks).map (fun p => p.1.productive) = some true := by decide +kernel

set_option maxHeartbeats 0 in
set_option maxRecDepth 100000 in
theorem json_productive : (compileToks 60 jsonToks).map (fun p => p.1.productive) = some true := by decide +kernel

/-- **C89** (the generated arithmetic parser). On a text that is not an expression it reports the first error. -/
theorem C89_arith {st : BState} (hst : Generates arithToks st) (text : List Char) (err : ParseError) (hp : Parses st 0 text (.err err)) :
    ∃ n, FirstErrorAt (fun w => ∃ i : AInput, i.text = w) text n err.position := by
  obtain ⟨n, h⟩ := generates_first_error arith_compiled arith_productive hst text err hp
  exact ⟨n, h.congr fun w => (C47_syntax_agrees st hst w).1⟩

/-- **C89** (the arithmetic parsers compared). If the hand-written parser reports an error on a text, so does the generated one, at the same
place or further to the left: at the first error. -/
theorem C89_arith_not_later {st : BState} (hst : Generates arithToks st) (m : Ovf) (text : List Char) (e : ParseError)
    (h : HandParses m text (.err e)) : ∃ err n n', Parses st 0 text (.err err) ∧
      FirstErrorAt (fun w => ∃ i : AInput, i.text = w) text n err.position ∧
      e.position = ⟨specLine text n', specCol text n'⟩ ∧ n' ≤ text.length ∧ n ≤ n' := by
  obtain ⟨err, hp⟩ := (C47_syntax_agrees st hst text).2.2 m e h
  obtain ⟨n, hf⟩ := C89_arith hst text err hp
  obtain ⟨q, r, h1, h2, h3⟩ := C86_arith_error_place m text e h
  refine ⟨err, n, q.length, hp, hf, h2, by rw [h1]; simp, ?_⟩
  obtain ⟨p, rest, h4, h5, -, ⟨z, i, hi⟩, -, -⟩ := hf
  rcases Nat.lt_or_ge q.length n with hlt | hge
  · have hq : q <+: p := by
      have e : q ++ r = p ++ rest := by rw [← h1, h4]
      exact List.prefix_of_prefix_length_le (⟨r, e⟩ : q <+: p ++ rest) ⟨rest, rfl⟩ (by omega)
    obtain ⟨x, rfl⟩ := hq
    cases x with
    | nil => rw [List.append_nil] at h5; omega
    | cons c x =>
      have hr : r = c :: (x ++ rest) := by
        have e : q ++ r = q ++ (c :: (x ++ rest)) := by rw [← h1, h4]; simp
        exact List.append_cancel_left e
      refine absurd ?_ (h3 i (c :: x ++ z) (by rw [hi]; simp))
      rw [hr]; rfl
  · exact hge

/-- **C89** (and sometimes the hand-written one is later). On `((1+)*)` the generated parser reports the first parenthesis that is too early,
the hand-written one the star behind it. -/
theorem C89_arith_earlier {st : BState} (hst : Generates arithToks st) (m : Ovf) : ∃ err e, Parses st 0 "((1+)*)".toList (.err err) ∧
    HandParses m "((1+)*)".toList (.err e) ∧ e.position = ⟨1, 5⟩ ∧ ∃ n, n < 5 ∧ err.position = ⟨specLine "((1+)*)".toList n, specCol "((1+)*)".toList n⟩ := by
  obtain ⟨h1, -, h2⟩ := C86_arith_late_error m
  obtain ⟨err, n, -, hp, hf, -⟩ := C89_arith_not_later hst m _ _ h1
  refine ⟨err, _, hp, h1, rfl, n, ?_, ?_⟩
  · obtain ⟨p, rest, h4, h5, -, ⟨z, i, hi⟩, -, -⟩ := hf
    rcases Nat.lt_or_ge n 5 with hlt | hge
    · exact hlt
    · exfalso
      have hq : "((1+)".toList <+: p :=
        List.prefix_of_prefix_length_le (⟨"*)".toList, by rw [← h4]; decide⟩ : "((1+)".toList <+: p ++ rest) ⟨rest, rfl⟩
          (by rw [h5]; exact hge)
      obtain ⟨x, rfl⟩ := hq
      exact h2 i (x ++ z) (by rw [hi, List.append_assoc])
  · obtain ⟨_, _, _, _, h6, _⟩ := hf
    exact h6

/-- **C89** (the generated JSON parser). On a text that is not a document of the strings it supports it reports the first error. -/
theorem C89_json {st : BState} (hst : Generates jsonToks st) (text : List Char) (err : ParseError) (hp : Parses st 0 text (.err err)) :
    ∃ n, FirstErrorAt (fun w => ∃ p : JPad, p.text = w ∧ p.Ok asciiRules) text n err.position := by
  obtain ⟨n, h⟩ := generates_first_error json_compiled json_productive hst text err hp
  exact ⟨n, h.congr fun w => C56_language hst w⟩

/-! ### autonibble's grammar contains a fix point that matches nothing: `let bot = !(/rec/ "a" . rec)` -/

/-- Run the parser generated from a typed grammar. -/
def runTyped (te : TE) (text : List Char) : ParseRes Tree :=
  match gen heckCasing te {} with
  | .ok (_, st) => parseStr (st.take 60 0) text
  | _ => .oof

theorem runTyped_eq {te : TE} {id : Nat} {st : BState} (h : gen heckCasing te {} = .ok (id, st)) (text : List Char) :
    runTyped te text = parseStr (st.take 60 0) text := by
  unfold runTyped
  rw [h]

/-- Whether the result is this string mismatch. -/
def ParseRes.isBadString : ParseRes Tree → LineCol → List Char → List Char → Bool
  | .err (.take (.badString p g e)), p', g', e' => p == p' && g == g' && e == e'
  | _, _, _, _ => false

theorem ParseRes.isBadString_eq {r : ParseRes Tree} {p : LineCol} {g e : List Char} (h : r.isBadString p g e = true) :
    r = .err (.take (.badString p g e)) := by
  unfold ParseRes.isBadString at h
  split at h
  · simp only [Bool.and_eq_true, beq_iff_eq] at h
    obtain ⟨⟨rfl, rfl⟩, rfl⟩ := h
    rfl
  · cases h

/-- The result of running the parser, if the compiler has been run in stages. -/
theorem parses_of_stages {fuel : Nat} {ts : List Tok} {e r : NE} {te : TE} {tbl : List (String × NodeF Nat × List String)}
    (h1 : convProgram ts = some e) (h2 : reduce fuel e = .ok r) (h3 : inferTop fuel r ⟨[], []⟩ = (.ok te, ⟨[], []⟩))
    (h4 : genTable fuel te = some tbl) {st : BState} (hst : Generates ts st) {text : List Char} {res : ParseRes Tree}
    (hr : runTyped te text = res) (h : res ≠ .oof) : Parses st 0 text res := by
  obtain ⟨s, c, hs, hc⟩ := convProgram_some h1
  obtain ⟨st', out, hg, he, ht⟩ := genTable_some h4
  have hcomp : compile heckCasing fuel s = .ok te 0 st' out := by
    unfold compile
    simp only [hc, h2, h3, hg, he]
  have hc : compileToks fuel ts = some (te, st') := by
    unfold compileToks
    simp only [hs, hcomp]
  have := hst.unique hc
  subst this
  exact ⟨h, 60, (runTyped_eq hg text).symm.trans hr⟩

theorem autoRun_parses {st : BState} (hst : Generates autoToks st) {text : List Char} {r : ParseRes Tree}
    (hr : runTyped autoTyped11_0 text = r) (h : r ≠ .oof) : Parses st 0 text r :=
  parses_of_stages auto_converted auto_reduced auto_typed auto_gen hst hr h

set_option maxHeartbeats 0 in
set_option maxRecDepth 100000 in
theorem autoRun_late : (runTyped autoTyped11_0 "match \"\\u{111111aaaab".toList).isBadString ⟨1, 20⟩ ['b'] ['a'] = true := by decide +kernel

set_option maxHeartbeats 0 in
set_option maxRecDepth 100000 in
theorem autoRun_first : (runTyped autoTyped11_0 "match \"\\u{111111bbbb".toList).isBadString ⟨1, 16⟩ ['b'] ['}'] = true := by decide +kernel

/-- A text that begins with a quote is no identifier. -/
theorem UIdent.text_ne_quote (i : UIdent) {s u : List Char} : i.text ++ s ≠ '"' :: u := by
  intro h
  have : i.first.char = '"' := by simpa [UIdent.text] using (List.cons.inj h).1
  revert this
  generalize i.first = k
  revert k
  decide

/-- If a term begins with a quote, it is a literal. -/
theorem UTerm.quote : ∀ (t : UTerm) {s u : List Char}, t.text ++ s = '"' :: u →
    ∃ (c : UChar) (s' : List Char), u = c.text ++ s'
  | .eps, _, _, h => by cases h
  | .lit c r, s, u, h => by
    rw [UTerm.text] at h
    refine ⟨c, r.flatMap UChar.text ++ ['"'] ++ s, ?_⟩
    have := (List.cons.inj h).2
    rw [← this]
    simp
  | .parens _ _, _, _, h => by cases h
  | .fix _ _, _, _, h => by cases h
  | .var i, _, _, h => (i.text_ne_quote h).elim

theorem UCall.quote : ∀ (x : UCall) {s u : List Char}, x.text ++ s = '"' :: u → ∃ (c : UChar) (s' : List Char), u = c.text ++ s'
  | .one t, _, _, h => t.quote h
  | .trail t _ _, _, _, h => t.quote (by rw [UCall.text, List.append_assoc] at h; exact h)
  | .more t _ _ _, _, _, h => t.quote (by rw [UCall.text, List.append_assoc] at h; exact h)

theorem UCat.quote : ∀ (x : UCat) {s u : List Char}, x.text ++ s = '"' :: u → ∃ (c : UChar) (s' : List Char), u = c.text ++ s'
  | .one t, _, _, h => t.quote h
  | .more t _ _, _, _, h => t.quote (by rw [UCat.text, List.append_assoc] at h; exact h)

theorem ULabelled.quote : ∀ (x : ULabelled) {s u : List Char}, x.text ++ s = '"' :: u → ∃ (c : UChar) (s' : List Char), u = c.text ++ s'
  | .plain t, _, _, h => t.quote h
  | .label t _ _ _, _, _, h => t.quote (by rw [ULabelled.text, List.append_assoc] at h; exact h)

theorem UAlt.quote : ∀ (x : UAlt) {s u : List Char}, x.text ++ s = '"' :: u → ∃ (c : UChar) (s' : List Char), u = c.text ++ s'
  | .one t, _, _, h => t.quote h
  | .more t _ _, _, _, h => t.quote (by rw [UAlt.text, List.append_assoc] at h; exact h)

theorem UExpr.quote : ∀ (x : UExpr) {s u : List Char}, x.text ++ s = '"' :: u → ∃ (c : UChar) (s' : List Char), u = c.text ++ s'
  | .alt t, _, _, h => t.quote h
  | .lam _ _ _ _, _, _, h => by cases h

theorem Blank.of_not_ws (b : Blank) {s u : List Char} {c : Char} (hc : c ∉ wsChars) (h : b.text ++ s = c :: u) : b = [] ∧ s = c :: u := by
  cases b with
  | nil => exact ⟨rfl, h⟩
  | cons k b =>
    refine absurd ?_ hc
    have : k.char = c := (List.cons.inj h).1
    rw [← this]
    exact List.getElem_mem _

/-- A program that begins with `match "` goes on with a character of a literal. -/
theorem UProg.quote (p : UProg) {u : List Char} (h : p.text = "match \"".toList ++ u) : ∃ (c : UChar) (s' : List Char), u = c.text ++ s' := by
  obtain ⟨ws, stmt⟩ := p
  obtain ⟨-, h⟩ : _ ∧ stmt.text = "match \"".toList ++ u := Blank.of_not_ws ws (c := 'm') (by decide) h
  cases stmt with
  | letS => cases h
  | goal w ws e ws' =>
    have e1 : "match \"".toList = "match".toList ++ [' ', '"'] := by rfl
    have h : w.char :: (ws.text ++ (e.text ++ ';' :: ws'.text)) = ' ' :: '"' :: u := by
      rw [UStmt.text, e1, List.append_assoc] at h
      exact List.append_cancel_left h
    obtain ⟨-, h⟩ := Blank.of_not_ws ws (c := '"') (by decide) (List.cons.inj h).2
    exact e.quote h

/-- No program begins with `match "\u{111111a`. -/
theorem auto_not_begins : ¬ Begins (fun w => ∃ p : UProg, p.text = w) "match \"\\u{111111a".toList := by
  rintro ⟨r, p, hp⟩
  obtain ⟨c, s, h⟩ := p.quote (u := "\\u{111111a".toList ++ r) (by rw [hp]; rfl)
  cases c with
  | plain k =>
    exact (by decide : ∀ k : Pick plainChars, k.char ≠ '\\') k (List.cons.inj h).1.symm
  | ascii k =>
    exact (by decide : ∀ k : Pick asciiChars, k.char ≠ 'u') k (List.cons.inj (List.cons.inj h).2).1.symm
  | byte o k => cases (List.cons.inj (List.cons.inj h).2).1
  | unicode d ds hd =>
    have h1 : (d :: ds).map Pick.char ++ '}' :: s = "111111a".toList ++ r := by
      rw [UChar.text] at h
      have h2 := congrArg (List.drop 3) h
      simpa using h2.symm
    have h2 := congrArg (fun l => l[ds.length + 1]?) h1
    rw [List.getElem?_append_right (by simp), List.getElem?_append_left (by simp; omega)] at h2
    simp only [List.length_map, List.length_cons, Nat.sub_self, List.getElem?_cons_zero] at h2
    have : ∀ n : Nat, n ≤ 5 → "111111a".toList[n + 1]? ≠ some '}' := by decide
    exact this _ hd h2.symm

set_option maxHeartbeats 0 in
set_option maxRecDepth 100000 in
theorem autoTyped_unproductive : autoTyped11_0.productive = false := by decide +kernel

/-- **C89** (autonibble). Its grammar says that nothing may follow six digits of an escape by means of a fix point that matches nothing,
`let bot = !(/rec/ "a" . rec);`, so it does not meet the condition, and its parser does not always report the first error: no program
begins with `match "\u{111111a`, but on `match "\u{111111aaaab` the parser reads on, and complains that the `b` is not an `a`, although
only `}` could have followed the digits, as it says if the seventh digit is not an `a`. -/
theorem C89_autonibble_late {st : BState} (hst : Generates autoToks st) : autoTyped11_0.productive = false ∧
    ¬ Begins (fun w => ∃ p : UProg, p.text = w) "match \"\\u{111111a".toList ∧
    Parses st 0 "match \"\\u{111111aaaab".toList (.err (.take (.badString ⟨1, 20⟩ ['b'] ['a']))) ∧
    Parses st 0 "match \"\\u{111111bbbb".toList (.err (.take (.badString ⟨1, 16⟩ ['b'] ['}']))) ∧
    ¬ ∃ n, FirstErrorAt (fun w => ∃ p : UProg, p.text = w) "match \"\\u{111111aaaab".toList n ⟨1, 20⟩ := by
  have h1 := ParseRes.isBadString_eq autoRun_late
  have h2 := ParseRes.isBadString_eq autoRun_first
  refine ⟨autoTyped_unproductive, auto_not_begins, autoRun_parses hst h1 (by simp), autoRun_parses hst h2 (by simp), ?_⟩
  rintro ⟨n, p, rest, h3, h4, h5, h6, -⟩
  have hn : 17 ≤ n := by
    apply Classical.byContradiction
    intro hlt
    have hlt : n < 17 := by omega
    have : ∀ n, n < 17 → (⟨1, 20⟩ : LineCol) ≠ ⟨specLine "match \"\\u{111111aaaab".toList n, specCol "match \"\\u{111111aaaab".toList n⟩ := by
      decide
    exact this n hlt h5
  have hq : "match \"\\u{111111a".toList <+: p :=
    List.prefix_of_prefix_length_le (⟨"aaab".toList, by rw [← h3]; decide⟩ : "match \"\\u{111111a".toList <+: p ++ rest) ⟨rest, rfl⟩
      (by rw [h4]; exact hn)
  obtain ⟨q, rfl⟩ := hq
  exact auto_not_begins h6.mono

/-- **C89** (autonibble reports no error too early). -/
theorem C89_autonibble {st : BState} (hst : Generates autoToks st) (text : List Char) (err : ParseError) (hp : Parses st 0 text (.err err)) :
    ∃ n, n ≤ text.length ∧ err.position = ⟨specLine text n, specCol text n⟩ ∧
      ∀ q, q <+: text → Begins (fun w => ∃ p : UProg, p.text = w) q → q.length ≤ n := by
  obtain ⟨n, h1, h2, h3⟩ := generates_never_too_early auto_compiled hst text err hp
  refine ⟨n, h1, h2, fun q hq hb => h3 q hq ?_⟩
  obtain ⟨r, hr⟩ := hb
  exact ⟨r, (C44_language hst _).1.2 hr⟩

/-- The hypotheses are met: the three parsers exist, and reject the empty text. -/
example : (∃ st, Generates arithToks st ∧ ∃ err, Parses st 0 [] (.err err)) ∧ (∃ st, Generates jsonToks st) ∧ ∃ st, Generates autoToks st := by
  obtain ⟨st, h⟩ := (generates_table arith_compiled).1
  refine ⟨⟨st, h, ?_⟩, (generates_table json_compiled).1, (generates_table auto_compiled).1⟩
  exact (C47_syntax_agrees st h []).2.2 .checked _ ⟨by simp, 40, rfl⟩

end Chomp
