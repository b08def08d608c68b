import Verif.Props.Parser
import Verif.Gram.Exact

/-! # C55: error messages are truthful -/

namespace Chomp

theorem Viable.root {g : Gram} {p : List Char} {e : TakeError} (h : Viable (Der [] g) p e) :
    (∃ v, g.language v ∧ p <+: v) ∧
      (∀ pos c exp, e = .badBranch pos c exp → ∀ d ∈ exp, ∃ v, g.language v ∧ (p ++ [d]) <+: v) ∧
      ∀ pos got s, e = .badString pos got s → ∃ p0 q r, p = p0 ++ q ∧ s = q ++ r ∧ r ≠ [] ∧
        ∃ v, g.language v ∧ (p0 ++ s) <+: v := by
  have hl : ∀ t, Der [] g t → g.language t.text := fun t ht => (language_iff_der _ _).2 ⟨t, ht, rfl⟩
  refine ⟨?_, ?_, ?_⟩
  · obtain ⟨t, h1, h2⟩ := h.consumed
    exact ⟨_, hl t h1, h2⟩
  · intro pos c exp he d hd
    obtain ⟨t, h1, h2⟩ := h.chars pos c exp he d hd
    exact ⟨_, hl t h1, h2⟩
  · intro pos got s he
    obtain ⟨p0, q, r, h1, h2, h3, t, h4, h5⟩ := h.string pos got s he
    exact ⟨p0, q, r, h1, h2, h3, _, hl t h4, h5⟩

/-- **C55.** Assume that every fix point in the grammar matches some string.  If `parse_str` reports an
error of `take`, the error points at the first place where the input stops being the beginning of a word:
the text `p` before the reported position is the beginning of a word, and if a character follows, then `p`
with that character is not.  What the error says it expected is possible there: every listed character
can follow `p`, and an expected string can stand where the parser looked for it, the part of it before
the position having been found. -/
theorem C55_errors_truthful {e : NE} {te : TE} {s : BState} {id : Nat} (h : Compiled e te s id)
    (hns : NoSharingConflict te) (hne : te.gram.NoEmptyParts) (text : List Char) (err : TakeError)
    (hp : Parses s id text (.err (.take err))) :
    ∃ p rest, text = p ++ rest ∧ err.position = ⟨specLine text p.length, specCol text p.length⟩ ∧
      err.offending = rest.head? ∧
      (∃ v, te.gram.language v ∧ p <+: v) ∧
      (∀ c r, rest = c :: r → ¬ ∃ v, te.gram.language v ∧ (p ++ [c]) <+: v) ∧
      (∀ pos c expected, err = .badBranch pos c expected → ∀ d ∈ expected, ∃ v, te.gram.language v ∧ (p ++ [d]) <+: v) ∧
      (∀ pos got expected, err = .badString pos got expected → ∃ p0 q r, p = p0 ++ q ∧ expected = q ++ r ∧ r ≠ [] ∧
        ∃ v, te.gram.language v ∧ (p0 ++ expected) <+: v) ∧
      (rest = [] → ∃ v, te.gram.language v ∧ text <+: v ∧ text ≠ v) := by
  obtain ⟨q, h1, h2⟩ := Parses.takes.1 hp
  cases q with
  | ok t w' =>
    simp only [parseWith] at h2
    rcases hpk : w'.peek with ⟨_ | c, w''⟩ <;> rw [hpk] at h2 <;> cases h2
  | panic => cases h2
  | oof => cases h2
  | err e' w' =>
    cases h2
    have h1' := h1
    obtain ⟨_, n, hn⟩ := h1'
    obtain ⟨_, h4⟩ := run_err n id _ _ _ hn
    obtain ⟨h5, h6⟩ := h4.spec
    rw [(h.run_eq hns n _).1] at hn
    obtain ⟨p, h3, hv⟩ := takeR_viable n [] te _ _ _ h.ann .nil EnvNE.nil (by
      rw [List.map_nil, envLang_nil]; exact hne) hn
    obtain ⟨v1, v2, v3⟩ := Viable.root hv
    refine ⟨p, w'.rem, by simpa using h3.1, by rw [h5]; exact h3.pos_spec, h6, v1, ?_, v2, v3, ?_⟩
    · rintro c r hr ⟨v, hv, hx⟩
      exact no_extension h hns h1 (by simp [Res.Ends, hr]) (.inl ⟨_, rfl⟩) h3 hr v hv hx
    · intro hr
      obtain ⟨v, v4, v5⟩ := v1
      have ht : text = p := by have := h3.1; rw [hr] at this; simpa using this
      refine ⟨v, v4, by rwa [ht], ?_⟩
      rintro rfl
      obtain ⟨t, h7⟩ := (h.accepts hns text).2 v4
      exact hp.not_ok ⟨t, h7⟩

/-- **C55** (input continues). Without an assumption on the grammar: if `parse_str` reports that the
input continues, the text before the position is a word, and with the next character it is not the
beginning of one. -/
theorem C55_input_continues {e : NE} {te : TE} {s : BState} {id : Nat} (h : Compiled e te s id)
    (hns : NoSharingConflict te) (text : List Char) (pos : LineCol) (hp : Parses s id text (.err (.inputContinues pos))) :
    ∃ p c r, text = p ++ c :: r ∧ pos = ⟨specLine text p.length, specCol text p.length⟩ ∧ te.gram.language p ∧
      ¬ ∃ v, te.gram.language v ∧ (p ++ [c]) <+: v := by
  obtain ⟨p, c, r, h1, h2, h3, h4⟩ := C35_input_continues h hns text pos hp
  exact ⟨p, c, r, h1, h2, h3, fun ⟨v, hv, hx⟩ => h4 v hv hx⟩

/-- **C25** (types are exact). If every fix point in the grammar matches some string, the first set of
the inferred type consists of exactly the characters that begin a word, and the flast set of exactly the
characters that follow a non-empty word in a longer one. -/
theorem C25_types_exact (n : Nat) (e : NE) (te : TE) (h : (inferTop n e ⟨[], []⟩).1 = .ok te)
    (hne : te.gram.NoEmptyParts) (c : Char) : (c ∈ te.ty.first ↔ ∃ w, te.gram.language (c :: w)) ∧
      (c ∈ te.ty.flast ↔ ∃ u w, u ≠ [] ∧ te.gram.language u ∧ te.gram.language (u ++ c :: w)) := by
  obtain ⟨hg, hT⟩ := C23_inference_sound n e te h
  have hu : Under te.ty te.gram.language := by
    refine (infer_under n e.info.name e ⟨[], []⟩ te [] 0 te.gram te.ty [] h hg ?_ hT .nil EnvNE.nil (by
      rw [envLang_nil]; exact hne)).mono fun w hw => (language_iff_der _ _).2 hw
    intro i σ hi
    simp at hi
  obtain ⟨_, h1, h2⟩ := C25_types_describe_language n e te h
  exact ⟨⟨hu.first c, fun ⟨w, hw⟩ => h1 c w hw⟩, ⟨hu.flast c, fun ⟨u, w, a, b, d⟩ => h2 u c w a b d⟩⟩

/-! ## Examples -/

private def vi : Info := ⟨none, 0⟩
private def vl (l : List Char) : NE := .lit vi l
private def vn : Name := .newVariable (.spanless "x")
private def vmu (b : NE) : NE := .fix vi (.lam vi [vn] b)
private def vcat (a : NE) (l : List NE) : NE := .cat vi a (l.map fun b => (0, b))
private def valt (a : NE) (l : List NE) : NE := .alt vi a (l.map fun b => (0, b))

/-- `!(/x/ "(" . x . ")" | "null")` -/
private def exNull : NE := vmu (valt (vcat (vl ['(']) [.var vi 0, vl [')']]) [vl "null".toList])

private theorem exNull_parts : (Gram.fix (.alt [.cat [.lit ['('], .var 0, .lit [')']], .lit "null".toList])).NoEmptyParts := by
  refine ⟨⟨"null".toList, fun X hX => hX _ (.inr (.inl rfl))⟩, ?_⟩
  simp [Gram.NoEmpty, Gram.NoEmptyL]

/-- The hypotheses of `C55_errors_truthful` are met with each kind of error. -/
example : ∃ te s, Compiled exNull te s 0 ∧ NoSharingConflict te ∧ te.gram.NoEmptyParts ∧
    Parses s 0 "(x".toList (.err (.take (.badBranch ⟨1, 1⟩ 'x' ['(', 'n']))) ∧
    Parses s 0 "(nux".toList (.err (.take (.badString ⟨1, 3⟩ "nux".toList "null".toList))) ∧
    Parses s 0 "((nu".toList (.err (.take (.endOfStream ⟨1, 4⟩))) ∧
    Parses s 0 "(null)x".toList (.err (.inputContinues ⟨1, 6⟩)) :=
  ⟨_, _, ⟨⟨8, rfl⟩, ⟨some, some⟩, rfl⟩, TE.shareSafe_sound (by decide), exNull_parts,
    ⟨by simp, 20, rfl⟩, ⟨by simp, 20, rfl⟩, ⟨by simp, 20, rfl⟩, ⟨by simp, 20, rfl⟩⟩

/-- **C55** (the assumption is needed). `!(/x/ "a" . x) | "b"` is accepted although its first branch matches
nothing; on `c` its parser says that `a` is expected, which no word starts with, and the first set is not
exact. -/
theorem C55_needs_matching_parts : ∃ e te s id pos, Compiled e te s id ∧ NoSharingConflict te ∧
    Parses s id ['c'] (.err (.take (.badBranch pos 'c' ['a', 'b']))) ∧ 'a' ∈ te.ty.first ∧
    ¬ ∃ v, te.gram.language v ∧ ['a'] <+: v := by
  refine ⟨valt (vmu (vcat (vl ['a']) [.var vi 0])) [vl ['b']], _, _, _, _, ⟨⟨8, rfl⟩, ⟨some, some⟩, rfl⟩,
    TE.shareSafe_sound (by decide), ⟨by simp, 20, rfl⟩, by decide, ?_⟩
  rintro ⟨v, hv, hp⟩
  rcases hv with hv | hv | hv
  · exact hv (fun _ => False) (by
      rintro w ⟨_, _, _, _, _, _, _, h, _⟩
      exact h)
  · cases hv
    simp at hp
  · exact hv

/-- **C55** (the list of expected characters need not be complete). The parser of `"z" . (_ | "a") . ("b" | "c")`
says on `zx` that `b` or `c` is expected, although `a` is possible as well. -/
theorem C55_expected_incomplete : ∃ e te s id pos, Compiled e te s id ∧ NoSharingConflict te ∧ te.gram.NoEmptyParts ∧
    Parses s id ['z', 'x'] (.err (.take (.badBranch pos 'x' ['b', 'c']))) ∧ te.gram.language ['z', 'a', 'b'] := by
  refine ⟨vcat (vl ['z']) [valt (.eps vi) [vl ['a']], valt (vl ['b']) [vl ['c']]], _, _, _, _, ⟨⟨8, rfl⟩, ⟨some, some⟩, rfl⟩,
    TE.shareSafe_sound (by decide), ?_, ⟨by simp, 20, rfl⟩, ?_⟩
  · simp [Gram.NoEmptyParts, TE.gram, TE.gramL, Gram.NoEmpty, Gram.NoEmptyL]
  · exact ⟨['z'], ['a', 'b'], rfl, rfl, ['a'], ['b'], rfl, .inr (.inl rfl), ['b'], [], rfl, .inl rfl, rfl⟩

end Chomp
