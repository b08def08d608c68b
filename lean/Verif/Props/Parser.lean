import Verif.Lower.Values
import Verif.Props.Chewed
import Verif.Props.Typed

/-! # C30–C36: generated parsers -/

namespace Chomp

/-- `e` is accepted by type inference as `te`, and code generation ends with the table `s` and the root
type `id`. -/
structure Compiled (e : NE) (te : TE) (s : BState) (id : Nat) : Prop where
  typed : ∃ n, (inferTop n e ⟨[], []⟩).1 = .ok te
  code : ∃ cas, gen cas te {} = .ok (id, s)

/-- `parse_str` of the generated type `id` ends with `r` on the given text. -/
def Parses (s : BState) (id : Nat) (text : List Char) (r : ParseRes Tree) : Prop :=
  r ≠ .oof ∧ ∃ n, parseStr (s.take n id) text = r

/-- `take` of the generated type `id` ends with `r` in the given state of the input. -/
def Takes (s : BState) (id : Nat) (w : IW) (r : Res Tree) : Prop := r ≠ .oof ∧ ∃ n, s.take n id w = r

/-! ## The outcome of a run -/

theorem Compiled.ann {e : NE} {te : TE} {s : BState} {id : Nat} (h : Compiled e te s id) : Ann [] 0 te := by
  obtain ⟨n, hn⟩ := h.typed
  exact C23_annotations n e te hn

theorem Compiled.grammar {e : NE} {te : TE} {s : BState} {id : Nat} (h : Compiled e te s id) : e.grammar = some te.gram := by
  obtain ⟨n, hn⟩ := h.typed
  exact (C23_inference_sound n e te hn).1

theorem Compiled.run_eq {e : NE} {te : TE} {s : BState} {id : Nat} (h : Compiled e te s id) (hns : NoSharingConflict te)
    (n : Nat) (w : IW) : s.take n id w = takeR n [] te w ∧ runCost s.step n id w = runCost stepR n ([], te) w := by
  obtain ⟨cas, hc⟩ := h.code
  exact gen_run h.ann hns.coherent hc n w

/-- The outcome does not depend on how deep the model lets the recursion go, once it is deep enough. -/
theorem Takes.unique {s : BState} {id : Nat} {w : IW} {r r' : Res Tree} (h : Takes s id w r) (h' : Takes s id w r') : r = r' := by
  obtain ⟨h1, n, rfl⟩ := h
  obtain ⟨h2, m, rfl⟩ := h'
  rcases Nat.le_total n m with hl | hl
  · exact (run_fuel hl h1).symm
  · exact run_fuel hl h2

theorem parseWith_takes {s : BState} {id : Nat} {w : IW} {r : ParseRes Tree} :
    (r ≠ .oof ∧ ∃ n, parseWith (s.take n id) w = r) ↔ ∃ q, Takes s id w q ∧ parseWith (fun _ => q) w = r := by
  constructor
  · rintro ⟨h, n, rfl⟩
    refine ⟨s.take n id w, ⟨?_, n, rfl⟩, rfl⟩
    intro ho
    exact h (by simp only [parseWith, ho])
  · rintro ⟨q, ⟨h1, n, h2⟩, rfl⟩
    refine ⟨?_, n, ?_⟩
    · cases q with
      | ok a w' =>
        simp only [parseWith]
        rcases w'.peek with ⟨_ | _, _⟩ <;> simp
      | err e w' => simp [parseWith]
      | panic => simp [parseWith]
      | oof => exact absurd rfl h1
    · simp only [parseWith, h2]

theorem Parses.takes {s : BState} {id : Nat} {text : List Char} {r : ParseRes Tree} :
    Parses s id text r ↔ ∃ q, Takes s id (IW.new text) q ∧ parseWith (fun _ => q) (IW.new text) = r :=
  parseWith_takes

theorem Parses.unique {s : BState} {id : Nat} {text : List Char} {r r' : ParseRes Tree} (h : Parses s id text r)
    (h' : Parses s id text r') : r = r' := by
  obtain ⟨q, h1, rfl⟩ := Parses.takes.1 h
  obtain ⟨q', h2, rfl⟩ := Parses.takes.1 h'
  rw [h1.unique h2]

/-! ## Examples -/

private def xi : Info := ⟨none, 0⟩
private def xl (l : List Char) : NE := .lit xi l
private def xn : Name := .newVariable (.spanless "x")
private def xmu (b : NE) : NE := .fix xi (.lam xi [xn] b)
private def xcat (a : NE) (l : List NE) : NE := .cat xi a (l.map fun b => (0, b))
private def xalt (a : NE) (l : List NE) : NE := .alt xi a (l.map fun b => (0, b))
private def xcas : Casing := ⟨some, some⟩

/-- `!(/x/ "(" . x . ")" | "n")` -/
private def exParens : NE := xmu (xalt (xcat (xl ['(']) [.var xi 0, xl [')']]) [xl ['n']])

/-- `!(/x/ "[" . !(/y/ x | ",") . "]" | "<" . !(/y/ x | ",") . ">" | "n")`, which uses a fix point with a
free variable twice. -/
private def exShared : NE :=
  xmu (xalt (xcat (xl ['[']) [xmu (xalt (.var xi 1) [xl [',']]), xl [']']])
    [xcat (xl ['<']) [xmu (xalt (.var xi 1) [xl [',']]), xl ['>']], xl ['n']])

private theorem exParens_compiled : ∃ te s, Compiled exParens te s 0 ∧ NoSharingConflict te ∧
    Parses s 0 ['(', 'n', ')'] (.ok (.alt 0 (.cat [.lit ['('], .box (.alt 1 (.lit ['n'])), .lit [')']]))) :=
  ⟨_, _, ⟨⟨8, rfl⟩, xcas, rfl⟩, TE.shareSafe_sound (by decide), by simp, 20, rfl⟩

private theorem exShared_compiled : ∃ te s, Compiled exShared te s 0 ∧ NoSharingConflict te ∧
    ∃ t, Parses s 0 "[<n>]".toList (.ok t) :=
  ⟨_, _, ⟨⟨8, rfl⟩, xcas, rfl⟩, TE.shareSafe_sound (by decide), _, by simp, 20, rfl⟩

/-! ## Reference parser -/

/-- A bound on the recursion depth of the parser of `te` on `L` characters. -/
def depthBound (te : TE) (L : Nat) : Nat := (te.size + 1) * (te.size + 1) * (L + 1)

theorem takeR_ends {te : TE} (hA : Ann [] 0 te) (w : IW) : takeR (depthBound te w.rem.length) [] te w ≠ .oof := by
  refine takeR_depth (N := te.size) _ [] [] 0 te w .nil hA (Fits.root te) ?_
  have := mu_le (Fits.root te) 0
  simp only [depthBound]
  generalize (te.size + 1) * (te.size + 1) = M at this ⊢
  rw [Nat.mul_comm w.rem.length, Nat.mul_add, Nat.mul_one]
  omega

theorem takeR_parse {te : TE} (hA : Ann [] 0 te) {n : Nat} {text : List Char} {t : Tree} (hd : Der [] te.gram t)
    (ht : t.text = text) (hn : takeR n [] te (IW.new text) ≠ .oof) :
    ∃ w', takeR n [] te (IW.new text) = .ok t w' ∧ w'.rem = [] := by
  refine takeR_complete n [] [] te 0 (IW.new text) t [] .nil hA hd (by simp [ht]) ?_ hn
  intro c r' h
  cases h

theorem takeR_language {te : TE} {n : Nat} {text : List Char} {t : Tree} {w' : IW}
    (h : takeR n [] te (IW.new text) = .ok t w') (hw : w'.rem = []) : te.gram.language text := by
  obtain ⟨h1, h2⟩ := takeR_sound n [] te _ _ _ h
  refine (language_iff_der _ _).2 ⟨t, h1, ?_⟩
  have := h2.1
  rw [hw, List.append_nil] at this
  simpa using this.symm

theorem takeR_not_language {te : TE} (hA : Ann [] 0 te) {n : Nat} {text : List Char} {e : TakeError} {w' : IW}
    (h : takeR n [] te (IW.new text) = .err e w') : ¬ te.gram.language text := by
  intro hl
  obtain ⟨t, h1, h2⟩ := (language_iff_der _ _).1 hl
  obtain ⟨w'', h3, _⟩ := takeR_parse hA h1 h2 (n := n) (by rw [h]; simp)
  rw [h] at h3
  cases h3

theorem Parses.not_ok {s : BState} {id : Nat} {text : List Char} {err : ParseError} (h : Parses s id text (.err err)) :
    ¬ ∃ t, Parses s id text (.ok t) := by
  rintro ⟨t, h'⟩
  cases h.unique h'

theorem IW.peek_ok {w : IW} (h : w.rem = []) : w.peek.1 = none := by rw [IW.peek_eq, h]; rfl

/-! ## C33 -/

/-- **C33** (counterexample to the absence of panics). The parser generated for the grammar `"éa"`
panics on `éx`. -/
theorem C33_parser_can_panic : ∃ e te s, Compiled e te s 0 ∧ NoSharingConflict te ∧ Parses s 0 "éx".toList .panic :=
  ⟨xl "éa".toList, _, _, ⟨⟨8, rfl⟩, xcas, rfl⟩, TE.shareSafe_sound (by decide), by simp, 5, rfl⟩

/-! ## C30 -/

/-- **C30** (syntax trees). `parse_str` returns `t` exactly on the text of the syntax tree `t`. -/
theorem C30_parse_tree {e : NE} {te : TE} {s : BState} {id : Nat} (h : Compiled e te s id)
    (hns : NoSharingConflict te) (text : List Char) (t : Tree) :
    Parses s id text (.ok t) ↔ Der [] te.gram t ∧ t.text = text := by
  constructor
  · rintro hp
    obtain ⟨q, ⟨_, n, h1⟩, h2⟩ := Parses.takes.1 hp
    rw [(h.run_eq hns n _).1] at h1
    cases q with
    | ok t' w' =>
      obtain ⟨h3, h4⟩ := takeR_sound n [] te _ _ _ h1
      simp only [parseWith] at h2
      rcases hpk : w'.peek with ⟨_ | c, w''⟩
      · rw [hpk] at h2
        cases h2
        have hw : w'.rem = [] := by
          rw [IW.peek_eq] at hpk
          cases hr : w'.rem with
          | nil => rfl
          | cons c r => rw [hr] at hpk; cases hpk
        refine ⟨h3, ?_⟩
        have := h4.1
        rw [hw, List.append_nil] at this
        simpa using this.symm
      · rw [hpk] at h2; cases h2
    | err e w' => cases h2
    | panic => cases h2
    | oof => cases h2
  · rintro ⟨hd, ht⟩
    have h1 := takeR_ends h.ann (IW.new text)
    obtain ⟨w', h2, h3⟩ := takeR_parse h.ann hd ht h1
    rw [← (h.run_eq hns _ _).1] at h2
    refine Parses.takes.2 ⟨_, ⟨by simp, _, h2⟩, ?_⟩
    have := IW.peek_ok h3
    simp only [parseWith]
    rcases hp : w'.peek with ⟨_ | _, _⟩
    · rfl
    · rw [hp] at this; cases this

theorem Compiled.accepts {e : NE} {te : TE} {s : BState} {id : Nat} (h : Compiled e te s id)
    (hns : NoSharingConflict te) (text : List Char) : (∃ t, Parses s id text (.ok t)) ↔ te.gram.language text := by
  rw [language_iff_der]
  simp only [C30_parse_tree h hns]

/-- **C30.** The generated parser accepts exactly the strings of the language of the grammar. -/
theorem C30_accepts_language {e : NE} {te : TE} {s : BState} {id : Nat} (h : Compiled e te s id)
    (hns : NoSharingConflict te) :
    ∃ g, e.grammar = some g ∧ ∀ text, (∃ t, Parses s id text (.ok t)) ↔ g.language text :=
  ⟨te.gram, h.grammar, h.accepts hns⟩

/-- **C30** (meaning). If moreover every fix point is over a lambda with one parameter, these are the
strings the expression means, with `!` as least fix point. -/
theorem C30_accepts_meaning {e : NE} {te : TE} {s : BState} {id : Nat} (h : Compiled e te s id)
    (hns : NoSharingConflict te) (hu : e.unaryFix) (text : List Char) :
    (∃ t, Parses s id text (.ok t)) ↔ e.erase.eval langAlg (fun _ _ _ => False) [] text := by
  obtain ⟨g, hg, h1⟩ := C30_accepts_language h hns
  obtain ⟨n, hn⟩ := h.typed
  rw [h1 text, ← C29_fix_binds_partial n e te hn hu text]
  rw [h.grammar] at hg
  cases hg
  exact Iff.rfl

example : ∃ te s t, Compiled exParens te s 0 ∧ NoSharingConflict te ∧ Parses s 0 ['(', 'n', ')'] (.ok t) := by
  obtain ⟨te, s, h1, h2, h3⟩ := exParens_compiled
  exact ⟨te, s, _, h1, h2, h3⟩

/-! ## C31 -/

/-- **C31.** Whatever was generated: if `take` succeeds, the text it consumed is the display of the
value it returns. -/
theorem C31_take_display (s : BState) (id : Nat) (w w' : IW) (t : Tree) (h : Takes s id w (.ok t w')) :
    w.rem = t.display ++ w'.rem := by
  obtain ⟨_, n, hn⟩ := h
  rw [t.display_eq]
  exact (run_text n id w w' t hn).1

/-- **C31.** If `parse_str` succeeds, displaying the result gives back the input. -/
theorem C31_parse_display (s : BState) (id : Nat) (text : List Char) (t : Tree) (h : Parses s id text (.ok t)) :
    t.display = text := by
  obtain ⟨q, h1, h2⟩ := Parses.takes.1 h
  cases q with
  | ok t' w' =>
    have h3 := C31_take_display s id _ _ _ h1
    simp only [parseWith] at h2
    rcases hpk : w'.peek with ⟨_ | c, w''⟩
    · rw [hpk] at h2
      cases h2
      have hw : w'.rem = [] := by
        rw [IW.peek_eq] at hpk
        cases hr : w'.rem with
        | nil => rfl
        | cons c r => rw [hr] at hpk; cases hpk
      rw [hw, List.append_nil] at h3
      simpa using h3.symm
    · rw [hpk] at h2; cases h2
  | err e w' => cases h2
  | panic => cases h2
  | oof => cases h2

/-- **C31** (well-typed). The result is a value of the generated type. -/
theorem C31_parse_value (s : BState) (id : Nat) (w w' : IW) (t : Tree) (h : Takes s id w (.ok t w')) :
    Value s.step id t := by
  obtain ⟨_, n, hn⟩ := h
  exact run_value n id w w' t hn

/-! ## C32 -/

/-- **C32** (values). The values of the generated type are the syntax trees of the grammar. -/
theorem C32_values_are_trees {e : NE} {te : TE} {s : BState} {id : Nat} (h : Compiled e te s id)
    (hns : NoSharingConflict te) (t : Tree) : Value s.step id t ↔ Der [] te.gram t := by
  obtain ⟨cas, hc⟩ := h.code
  exact gen_values h.ann hns hc t

example : ∃ te s t, Compiled exParens te s 0 ∧ NoSharingConflict te ∧ Value s.step 0 t ∧ t.display = ['(', 'n', ')'] := by
  obtain ⟨te, s, h1, h2, h3⟩ := exParens_compiled
  refine ⟨te, s, _, h1, h2, ?_, C31_parse_display _ _ _ _ h3⟩
  obtain ⟨cas, hc⟩ := h1.code
  exact (gen_values h1.ann h2 hc _).2 ((C30_parse_tree h1 h2 _ _).1 h3).1

/-! ## C34 -/

/-- **C34.** If the remaining input is a word of the language followed by `rest`, and the first
character of `rest` is not one the type allows after (part of) a word, then `take` returns the syntax
tree of the word and leaves exactly `rest`. -/
theorem C34_take_prefix {e : NE} {te : TE} {s : BState} {id : Nat} (h : Compiled e te s id)
    (hns : NoSharingConflict te) (t : Tree) (ht : Der [] te.gram t) (w : IW) (rest : List Char)
    (hw : w.rem = t.text ++ rest)
    (hf : ∀ c r, rest = c :: r → if t.text = [] then c ∉ te.ty.first else c ∉ te.ty.flast) :
    ∃ w', Takes s id w (.ok t w') ∧ w'.rem = rest := by
  have h1 := takeR_ends h.ann w
  obtain ⟨w', h2, h3⟩ := takeR_complete _ [] [] te 0 w t rest .nil h.ann ht hw (by
    intro c r' hr
    have := hf c r' hr
    constructor
    · intro hne; rwa [if_neg hne] at this
    · intro he; rwa [if_pos he] at this) h1
  rw [← (h.run_eq hns _ _).1] at h2
  exact ⟨w', ⟨by simp, _, h2⟩, h3⟩

/-- **C34** (what is taken is a word). Whenever `take` succeeds, the consumed text is a word of the
language and the position has advanced over it. -/
theorem C34_take_sound {e : NE} {te : TE} {s : BState} {id : Nat} (h : Compiled e te s id)
    (hns : NoSharingConflict te) (w w' : IW) (t : Tree) (ht : Takes s id w (.ok t w')) :
    ∃ u, w.rem = u ++ w'.rem ∧ te.gram.language u ∧ Der [] te.gram t ∧ t.text = u ∧
      w'.pos = advPosN w.pos u.length w.rem := by
  obtain ⟨_, n, hn⟩ := ht
  rw [(h.run_eq hns n w).1] at hn
  obtain ⟨h1, h2⟩ := takeR_sound n [] te w w' t hn
  exact ⟨t.text, h2.1, (language_iff_der _ _).2 ⟨t, h1, rfl⟩, h1, rfl, h2.2⟩

/-- **C34** (sequencing). In particular, without a follow character in the language's `flast` set, a
non-empty word followed by any other character is taken completely. -/
theorem C34_take_word {e : NE} {te : TE} {s : BState} {id : Nat} (h : Compiled e te s id)
    (hns : NoSharingConflict te) (u : List Char) (hu : te.gram.language u) (hne : u ≠ []) (c : Char) (r : List Char)
    (hc : c ∉ te.ty.flast) : ∃ t w', Takes s id (IW.new (u ++ c :: r)) (.ok t w') ∧ t.text = u ∧ w'.rem = c :: r := by
  obtain ⟨t, h1, rfl⟩ := (language_iff_der _ _).1 hu
  obtain ⟨w', h2, h3⟩ := C34_take_prefix h hns t h1 (IW.new (t.text ++ c :: r)) (c :: r) (by simp) (by
    intro c' r' hr
    cases hr
    rw [if_neg hne]
    exact hc)
  exact ⟨t, w', h2, rfl, h3⟩

/-! ## C35 -/

/-- The position an error reports. -/
def TakeError.position : TakeError → LineCol
  | .badBranch p _ _ => p
  | .badString p _ _ => p
  | .endOfStream p => p

/-- The offending character an error reports; `none` at the end of the input. -/
def TakeError.offending : TakeError → Option Char
  | .badBranch _ c _ => some c
  | .badString _ got _ => got.getLast?
  | .endOfStream _ => none

theorem TakeError.At.spec {e : TakeError} {w : IW} (h : e.At w) :
    e.position = w.pos ∧ e.offending = w.rem.head? := by
  rcases h with ⟨h1, rfl⟩ | ⟨c, r, h1, ⟨exp, rfl⟩ | ⟨pre, exp, rfl⟩⟩
  · simp [TakeError.position, TakeError.offending, h1]
  · simp [TakeError.position, TakeError.offending, h1]
  · simp [TakeError.position, TakeError.offending, h1]

theorem Reach.pos_spec {text p : List Char} {w : IW} (h : Reach (IW.new text) p w) :
    w.pos = ⟨specLine text p.length, specCol text p.length⟩ := by
  have h1 := h.2
  rw [IW.rem_new, IW.pos_new] at h1
  rw [h1]
  refine advPosN_spec text p.length ?_
  have := h.1
  rw [IW.rem_new] at this
  rw [this]
  simp

/-- The text before the position, which is followed by `c`, and what any other text with the same
beginning does. -/
theorem no_extension {e : NE} {te : TE} {s : BState} {id : Nat} (h : Compiled e te s id) (hns : NoSharingConflict te)
    {text p : List Char} {c : Char} {r : List Char} {q : Res Tree} {w' : IW} (hq : Takes s id (IW.new text) q)
    (hw : q.Ends r.length) (hqw : (∃ e, q = .err e w') ∨ ∃ t, q = .ok t w') (hr : Reach (IW.new text) p w') (hc : w'.rem = c :: r)
    (v : List Char) (hv : te.gram.language v) : ¬ (p ++ [c]) <+: v := by
  rintro ⟨r2, hr2⟩
  obtain ⟨t, h1, h2⟩ := (language_iff_der _ _).1 hv
  obtain ⟨_, n, hn⟩ := hq
  have htext : text = p ++ c :: r := by simpa [hc] using hr.1
  have hag : Agree c r r2 (IW.new text) (IW.new v) := ⟨p, by simp [htext], by simp [← hr2], by simp [IW.pos_new]⟩
  have hl := run_local (f := s.step) n id _ _ hag (by rw [← hn] at hw; exact hw)
  have hne : s.take n id (IW.new v) ≠ .oof := by
    intro ho
    simp only [BState.take] at ho hn
    rw [ho, hn] at hl
    rcases hqw with ⟨e, rfl⟩ | ⟨t', rfl⟩ <;> cases hl
  rw [(h.run_eq hns n _).1] at hne
  obtain ⟨w'', h3, h4⟩ := takeR_parse h.ann h1 h2 hne
  rw [← (h.run_eq hns n _).1] at h3
  simp only [BState.take] at h3 hn
  rw [h3, hn] at hl
  rcases hqw with ⟨e, rfl⟩ | ⟨t', rfl⟩
  · cases hl
  · cases hl with
    | ok _ _ _ ha =>
      obtain ⟨x, _, h6, _⟩ := ha
      rw [h4] at h6
      simp at h6

/-- **C35** (error while parsing). If `parse_str` reports an error of `take`, the position it reports is
that after some prefix `p` of the input.  If input follows `p`, its first character is the one the error
reports, and no string of the language starts with `p` followed by that character.  Otherwise the error
reports the end of the input, and the input is not in the language. -/
theorem C35_error_position {e : NE} {te : TE} {s : BState} {id : Nat} (h : Compiled e te s id)
    (hns : NoSharingConflict te) (text : List Char) (err : TakeError) (hp : Parses s id text (.err (.take err))) :
    ∃ p rest, text = p ++ rest ∧ err.position = ⟨specLine text p.length, specCol text p.length⟩ ∧
      err.offending = rest.head? ∧
      (∀ c r, rest = c :: r → ∀ v, te.gram.language v → ¬ (p ++ [c]) <+: v) ∧
      (rest = [] → err = .endOfStream err.position ∧ ¬ te.gram.language text) := by
  obtain ⟨q, h1, h2⟩ := Parses.takes.1 hp
  cases q with
  | ok t w' =>
    simp only [parseWith] at h2
    rcases hpk : w'.peek with ⟨_ | c, w''⟩ <;> rw [hpk] at h2 <;> cases h2
  | panic => cases h2
  | oof => cases h2
  | err e' w' =>
    cases h2
    have h1' := h1
    obtain ⟨_, n, hn⟩ := h1'
    obtain ⟨⟨p, h3⟩, h4⟩ := run_err n id _ _ _ hn
    obtain ⟨h5, h6⟩ := h4.spec
    refine ⟨p, w'.rem, by simpa using h3.1, by rw [h5]; exact h3.pos_spec, h6, ?_, ?_⟩
    · intro c r hr v hv
      exact no_extension h hns h1 (by simp [Res.Ends, hr]) (.inl ⟨_, rfl⟩) h3 hr v hv
    · intro hr
      refine ⟨?_, ?_⟩
      · rcases h4 with ⟨_, rfl⟩ | ⟨c, r, h7, _⟩
        · rfl
        · rw [hr] at h7; cases h7
      · intro hl
        obtain ⟨t, h7⟩ := (h.accepts hns text).2 hl
        have := h7.unique hp
        cases this

/-- **C35** (input continues). If `parse_str` reports that the input continues, the position is that
after a word `p` of the language, input follows, and no string of the language starts with `p` followed
by the next character; so the input is not in the language. -/
theorem C35_input_continues {e : NE} {te : TE} {s : BState} {id : Nat} (h : Compiled e te s id)
    (hns : NoSharingConflict te) (text : List Char) (pos : LineCol) (hp : Parses s id text (.err (.inputContinues pos))) :
    ∃ p c r, text = p ++ c :: r ∧ pos = ⟨specLine text p.length, specCol text p.length⟩ ∧ te.gram.language p ∧
      ∀ v, te.gram.language v → ¬ (p ++ [c]) <+: v := by
  obtain ⟨q, h1, h2⟩ := Parses.takes.1 hp
  cases q with
  | err e w' => cases h2
  | panic => cases h2
  | oof => cases h2
  | ok t w' =>
    simp only [parseWith] at h2
    rcases hpk : w'.peek with ⟨_ | c, w''⟩
    · rw [hpk] at h2; cases h2
    · rw [hpk] at h2
      simp only [ParseRes.err.injEq, ParseError.inputContinues.injEq] at h2
      obtain ⟨u, h3, h4, _, _, h5⟩ := C34_take_sound h hns _ _ _ h1
      have hr : w'.rem.head? = some c ∧ w''.pos = w'.pos := by
        have h6 := hpk
        rw [IW.peek_eq] at h6
        have h7 := congrArg (fun x => x.2.pos) hpk
        simp only [IW.peek_pos] at h7
        exact ⟨congrArg Prod.fst h6, h7.symm⟩
      obtain ⟨r, hr'⟩ : ∃ r, w'.rem = c :: r := by
        cases hw : w'.rem with
        | nil => rw [hw] at hr; cases hr.1
        | cons c' r => rw [hw] at hr; cases hr.1; exact ⟨r, rfl⟩
      have hreach : Reach (IW.new text) u w' := ⟨h3, h5⟩
      refine ⟨u, c, r, by simpa [hr'] using h3, ?_, h4, ?_⟩
      · rw [← h2, hr.2]; exact hreach.pos_spec
      · intro v hv
        exact no_extension h hns h1 (by simp [Res.Ends, hr']) (.inr ⟨_, rfl⟩) hreach hr' v hv

/-- Non-vacuity: the three kinds of error. -/
example : ∃ te s, Compiled exParens te s 0 ∧ NoSharingConflict te ∧
    Parses s 0 ['(', 'x'] (.err (.take (.badBranch ⟨1, 1⟩ 'x' ['(', 'n']))) ∧
    Parses s 0 ['(', 'n', 'x'] (.err (.take (.badString ⟨1, 2⟩ ['x'] [')']))) ∧
    Parses s 0 ['(', 'n'] (.err (.take (.endOfStream ⟨1, 2⟩))) ∧
    Parses s 0 ['n', '\n', 'x'] (.err (.inputContinues ⟨1, 1⟩)) :=
  ⟨_, _, ⟨⟨8, rfl⟩, xcas, rfl⟩, TE.shareSafe_sound (by decide), ⟨by simp, 20, rfl⟩, ⟨by simp, 20, rfl⟩,
    ⟨by simp, 20, rfl⟩, by simp, 20, rfl⟩

/-! ## C36 -/

/-- **C36** (for grammars without sharing conflicts). The generated types, with all the sharing done by
the backend, behave on every input, in every state and to every recursion depth exactly like the
unshared interpretation `takeR` of the typed expression (including errors, panics and positions), and
with the same number of steps.  Missing: grammars in which two fix points have equal bodies but their
free variables refer to different fix points, see `C36_counterexample`. -/
theorem C36_codegen_faithful_partial (cas : Casing) (n : Nat) (e : NE) (te : TE) (h : (inferTop n e ⟨[], []⟩).1 = .ok te)
    (hns : NoSharingConflict te) (id : Nat) (s : BState) (hg : gen cas te {} = .ok (id, s)) (m : Nat) (w : IW) :
    s.take m id w = takeR m [] te w ∧ runCost s.step m id w = runCost stepR m ([], te) w :=
  gen_run (C23_annotations n e te h) hns.coherent hg m w

/-- **C36** (semantic criterion). It is enough that equal fix points behave alike. -/
theorem C36_codegen_faithful_coherent_partial (cas : Casing) (n : Nat) (e : NE) (te : TE)
    (h : (inferTop n e ⟨[], []⟩).1 = .ok te) (hco : Coherent te) (id : Nat) (s : BState)
    (hg : gen cas te {} = .ok (id, s)) (m : Nat) (w : IW) : s.take m id w = takeR m [] te w :=
  (gen_run (C23_annotations n e te h) hco hg m w).1

/-- **C36** (closed fix points). There is no sharing conflict if every fix point that occurs twice is
closed. -/
theorem C36_closed_fixes_no_conflict (te : TE)
    (h : ∀ ρ1 n1 b1 ρ2 n2 b2, Occ te ρ1 (.fix n1 b1) → Occ te ρ2 (.fix n2 b2) → b1.eqv b2 = true →
      (ρ1 = ρ2 ∧ n1 = n2 ∧ b1 = b2) ∨ TE.freeVars 1 b1 = []) : Coherent te := by
  intro ρ1 n1 b1 ρ2 n2 b2 h1 h2 h3 n w
  rcases h _ _ _ _ _ _ h1 h2 h3 with ⟨rfl, rfl, rfl⟩ | h4
  · exact ⟨rfl, rfl⟩
  · rw [takeR_eq_run, takeR_eq_run]
    have := same_of_closed (ρ1 := ρ1) (ρ2 := ρ2) (n1 := n1) (n2 := n2) h3 h4
    exact ⟨run_bisim (fun a b h => SameFix.step h) n _ _ w this, runCost_bisim (fun a b h => SameFix.step h) n _ _ w this⟩

/-- Non-vacuity: a fix point with a free variable that is shared by two occurrences. -/
example : ∃ te s, Compiled exShared te s 0 ∧ NoSharingConflict te ∧ (te.fixes []).length = 3 ∧
    (s.data.filter fun e => match e.node with | .alias _ => true | _ => false).length = 2 :=
  ⟨_, _, ⟨⟨8, rfl⟩, xcas, rfl⟩, TE.shareSafe_sound (by decide), rfl, rfl⟩

/-- `!(/i/ "y" . i | "z" | a)` where `a` is the variable bound outside. -/
private def exInner : NE := xmu (xalt (xcat (xl ['y']) [.var xi 0]) [xl ['z'], .var xi 1])

/-- `!(/a/ "x" . !(/i/ "y" . i | "z" | a) . "1") . !(/b/ "x" . !(/i/ "y" . i | "z" | b) . "2")` -/
private def exConflict : NE :=
  xcat (xmu (xcat (xl ['x']) [exInner, xl ['1']])) [xmu (xcat (xl ['x']) [exInner, xl ['2']])]

/-- **C36** (counterexample in the code). `gen_fix` looks fix points up by their body only.  In the
grammar `!(/a/ "x" . I(a) . "1") . !(/b/ "x" . I(b) . "2")` with `I(v) = !(/i/ "y" . i | "z" | v)` the second
`I` gets the type generated for the first one, which refers to `a` instead of `b`: the generated parser
rejects `xz1xxz22`, which is in the language, and accepts `xz1xxz12`, which is not. -/
theorem C36_counterexample : ∃ e te s id, Compiled e te s id ∧
    (te.gram.language "xz1xxz22".toList ∧ ¬ ∃ t, Parses s id "xz1xxz22".toList (.ok t)) ∧
    (¬ te.gram.language "xz1xxz12".toList ∧ ∃ t, Parses s id "xz1xxz12".toList (.ok t)) := by
  refine ⟨exConflict, _, _, _, ⟨⟨8, rfl⟩, xcas, rfl⟩, ⟨?_, ?_⟩, ?_, ?_⟩
  · exact takeR_language (n := 40) rfl rfl
  · exact Parses.not_ok (err := .take (.badString ⟨1, 6⟩ ['2'] ['1'])) ⟨by simp, 40, rfl⟩
  · exact takeR_not_language (n := 40) (C23_annotations 8 exConflict _ rfl) rfl
  · exact ⟨_, by simp, 40, rfl⟩

/-- **C36** (the conflict is what the criterion excludes). -/
theorem C36_counterexample_conflict : ∃ e te s id, Compiled e te s id ∧ te.shareSafe = false ∧ ¬ NoSharingConflict te := by
  refine ⟨exConflict, _, _, _, ⟨⟨8, rfl⟩, xcas, rfl⟩, by decide, ?_⟩
  intro hns
  have hc : Compiled exConflict _ _ _ := ⟨⟨8, rfl⟩, xcas, rfl⟩
  have h1 := (hc.accepts hns "xz1xxz22".toList).2 (takeR_language (n := 40) rfl rfl)
  exact Parses.not_ok (err := .take (.badString ⟨1, 6⟩ ['2'] ['1'])) ⟨by simp, 40, rfl⟩ h1

end Chomp
