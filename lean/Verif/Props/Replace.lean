import Verif.Gram.Swap
import Verif.Ast.Confluence
import Verif.Props.Laws
import Verif.Props.Viable

/-!
# C78: replacing parts of a program

A part of a program that is a grammar on its own may be replaced, anywhere in the program, by a grammar
with the same language: the program stays accepted and describes the same language.  If the new part
describes only some of the words of the old one, the program stays accepted, and describes no new words.
-/

namespace Chomp

/-- `e` is a program on its own: it evaluates to a grammar – fix points being over functions of one
parameter – that type inference accepts as `te`. -/
def Accepted (e : NE) (te : TE) : Prop :=
  ∃ n k r, reduce n e = .ok r ∧ r.unaryFix ∧ (inferTop k r ⟨[], []⟩).1 = .ok te

/-- Both are accepted on their own, every word of `b` is a word of `a`, and no fix point of `b` is
unproductive. -/
def Core.Narrows (a b : Core) : Prop :=
  ∃ p p' te te', p.erase = a ∧ p'.erase = b ∧ Accepted p te ∧ Accepted p' te' ∧ te'.gram.NoEmptyParts ∧
    ∀ w, te'.gram.language w → te.gram.language w

/-- Both are accepted on their own, without unproductive fix points, and have the same words. -/
def Core.SameWords (a b : Core) : Prop :=
  ∃ p p' te te', p.erase = a ∧ p'.erase = b ∧ Accepted p te ∧ Accepted p' te' ∧ te.gram.NoEmptyParts ∧
    te'.gram.NoEmptyParts ∧ ∀ w, te'.gram.language w ↔ te.gram.language w

/-! ### The parts after evaluation -/

theorem Accepted.steps {e : NE} {te : TE} (h : Accepted e te) : ∃ s, Core.Steps e.erase s ∧ s.gram unary = some te.gram ∧
    HasTy [] 0 te.gram te.ty ∧ ∀ τ, HasTy [] 0 te.gram τ → te.ty.le τ := by
  obtain ⟨n, k, r, hr, hu, ht⟩ := h
  obtain ⟨g, hg⟩ := Option.isSome_iff_exists.1 hu
  obtain ⟨h3, h4⟩ := C23_inference_sound k r te ht
  have hw := gram_weaken (v := fun _ => true) (by simp) _ _ hg
  rw [NE.grammar, hw] at h3
  cases h3
  refine ⟨r.erase, C17_reduce_steps n e r hr, hg, h4, fun τ hτ => ?_⟩
  obtain ⟨h5, h6, h7⟩ := C24_principal k r te τ ht hτ
  exact ⟨h5, h6, h7⟩

/-- The types of accepted grammars follow the languages. -/
theorem Accepted.ty_le {e e' : NE} {te te' : TE} (h : Accepted e te) (h' : Accepted e' te') (hne : te'.gram.NoEmptyParts)
    (hl : ∀ w, te'.gram.language w → te.gram.language w) : te'.ty.le te.ty := by
  obtain ⟨_, k, r, _, _, ht⟩ := h
  obtain ⟨_, k', r', _, _, ht'⟩ := h'
  obtain ⟨h1, h2, h3⟩ := C25_types_describe_language k r te ht
  obtain ⟨h1', _, _⟩ := C25_types_describe_language k' r' te' ht'
  have hx := C25_types_exact k' r' te' ht' hne
  refine ⟨fun hn => h1.1 (hl _ (h1'.2 hn)), fun c hc => ?_, fun c hc => ?_⟩
  · obtain ⟨w, hw⟩ := (hx c).1.1 hc
    exact h2 c w (hl _ hw)
  · obtain ⟨u, w, hu, h4, h5⟩ := (hx c).2.1 hc
    exact h3 u c w hu (hl _ h4) (hl _ h5)

theorem finer_of_le {g g' : Gram} {τ τ' : Ty} (hg : HasTy [] 0 g τ) (hp : ∀ σ, HasTy [] 0 g σ → τ.le σ) (hg' : HasTy [] 0 g' τ')
    (hle : τ'.le τ) : g.Finer g' := by
  intro Γ Γ' k σ _ _ hT
  exact ⟨τ', Ty.le_trans hle (hp σ (hT.anywhere hg.closed)), hg'.anywhere hg'.closed⟩

/-- Accepted programs, after replacing. -/
theorem accepted_swap {P Q : Core → Core → Prop} {R : Gram → Gram → Prop} (hR : Gram.Cong R) (hRF : ∀ g g', R g g' → g.Finer g')
    (hP : ∀ a b, P a b → ∃ a1 b1, Core.Steps a a1 ∧ Core.Steps b b1 ∧ Q a1 b1)
    (hQ : ∀ a b, Q a b → ∃ g g', a.gram unary = some g ∧ b.gram unary = some g' ∧ g.closed 0 ∧ g'.closed 0 ∧ R g g')
    {e e' : NE} {te : TE} (hs : Core.Swap P e.erase e'.erase) (h : Accepted e te) :
    ∃ te', Accepted e' te' ∧ te'.ty.le te.ty ∧ R te.gram te'.gram := by
  obtain ⟨e1, e1', h1, h2, h3⟩ := hs.parts hP
  obtain ⟨s, h4, h5, h6, _⟩ := h.steps
  have hin : Core.Inert Q := .of_gram fun a b hab => by
    obtain ⟨g, g', a1, a2, a3, a4, _⟩ := hQ a b hab
    exact ⟨g, g', a1, a2, a3, a4⟩
  -- the evaluated parts do not change the result
  obtain ⟨s1, h7, h8⟩ := Core.Steps.confluent h1 h4
  have hss : s1 = s := by
    clear h7
    induction h8 with
    | refl => rfl
    | tail _ hl ih => subst ih; exact absurd hl ((gram_noStep _).1 _ h5 _)
  subst hss
  obtain ⟨s', h9, h10⟩ := h3.steps hin h7
  obtain ⟨g', h11, h12⟩ := h10.gram hR (fun a b hab => by
    obtain ⟨g, g', a1, a2, _, _, a5⟩ := hQ a b hab
    exact ⟨g, g', a1, a2, a5⟩) _ h5
  obtain ⟨n', r', hr', rfl⟩ := reduce_of_gram (h2.trans h9) h11
  obtain ⟨τ', h13, h14⟩ := hRF _ _ h12 [] [] 0 te.ty (Nat.zero_le _) .nil h6
  have hw' : r'.grammar = some g' := gram_weaken (v := fun _ => true) (by simp) _ _ h11
  obtain ⟨te', ht'⟩ := (C24_accepts_iff_typable r' _ (Nat.le_refl _)).2 ⟨g', τ', hw', h14⟩
  have h15 := (C23_inference_sound _ r' te' ht').1
  rw [hw'] at h15
  cases h15
  refine ⟨te', ⟨n', _, r', hr', by rw [NE.unaryFix, h11]; rfl, ht'⟩, ?_, h12⟩
  obtain ⟨a1, a2, a3⟩ := C24_principal _ r' te' τ' ht' h14
  exact Ty.le_trans ⟨a1, a2, a3⟩ h13

/-! ## C78 -/

/-- What a part and its replacement have in common after evaluation. -/
theorem Core.Narrows.evaluate {a b : Core} (h : Core.Narrows a b) : ∃ a1 b1, Core.Steps a a1 ∧ Core.Steps b b1 ∧
    ∃ g g', a1.gram unary = some g ∧ b1.gram unary = some g' ∧ g.closed 0 ∧ g'.closed 0 ∧ g.Finer g' ∧ g.Within g' := by
  obtain ⟨p, p', te, te', rfl, rfl, h1, h2, h3, h4⟩ := h
  obtain ⟨s, a1, a2, a3, a4⟩ := h1.steps
  obtain ⟨s', b1, b2, b3, _⟩ := h2.steps
  refine ⟨s, s', a1, b1, _, _, a2, b2, a3.closed, b3.closed, finer_of_le a3 a4 b3 (h1.ty_le h2 h3 h4), fun ρ w hw => ?_⟩
  rw [lang_anywhere _ a3.closed]
  rw [lang_anywhere _ b3.closed] at hw
  exact h4 w hw

/-- **C78** (narrowing). If parts of an accepted program – also inside its functions and definitions – are
replaced by accepted grammars that describe only words of the parts they replace, the program is still
accepted, and describes only words it described before.  The type becomes at most more precise. -/
theorem C78_narrow (e e' : NE) (te : TE) (hs : Core.Swap Core.Narrows e.erase e'.erase) (h : Accepted e te) :
    ∃ te', Accepted e' te' ∧ (∀ w, te'.gram.language w → te.gram.language w) ∧
      (te'.ty.nullable = true → te.ty.nullable = true) ∧ (∀ c, c ∈ te'.ty.first → c ∈ te.ty.first) ∧
      ∀ c, c ∈ te'.ty.flast → c ∈ te.ty.flast := by
  obtain ⟨te', h1, h2, h3⟩ := accepted_swap (P := Core.Narrows) (R := fun g g' => g.Finer g' ∧ g.Within g')
    (Q := fun a b => ∃ g g', a.gram unary = some g ∧ b.gram unary = some g' ∧ g.closed 0 ∧ g'.closed 0 ∧ g.Finer g' ∧ g.Within g')
    (finer_cong.and within_cong) (fun _ _ h => h.1) (fun a b h => h.evaluate) (fun a b h => h) hs h
  exact ⟨te', h1, fun w => h3.2 _ w, h2.nullable, h2.first, h2.flast⟩

theorem Core.SameWords.narrows {a b : Core} (h : Core.SameWords a b) : Core.Narrows a b := by
  obtain ⟨p, p', te, te', h1, h2, h3, h4, _, h6, h7⟩ := h
  exact ⟨p, p', te, te', h1, h2, h3, h4, h6, fun w => (h7 w).1⟩

theorem Core.SameWords.symm {a b : Core} (h : Core.SameWords a b) : Core.SameWords b a := by
  obtain ⟨p, p', te, te', h1, h2, h3, h4, h5, h6, h7⟩ := h
  exact ⟨p', p, te', te, h2, h1, h4, h3, h6, h5, fun w => (h7 w).symm⟩

/-- An expression is accepted in one way. -/
theorem Accepted.unique {e : NE} {te te' : TE} (h : Accepted e te) (h' : Accepted e te') : te.gram = te'.gram ∧ te.ty = te'.ty := by
  obtain ⟨n, k, r, hr, hu, ht⟩ := h
  obtain ⟨n', k', r', hr', hu', ht'⟩ := h'
  have hrr : r.erase = r'.erase := by
    have h4 := reduce_ok_erase hr
    have h5 := reduce_ok_erase hr'
    have := reduceC_fuel_independent (n := n) (m := n') (e := e.erase) (by rw [h4]; simp) (by rw [h5]; simp)
    rw [h4, h5] at this
    exact Out.ok.inj this
  obtain ⟨h1, h2⟩ := C23_inference_sound k r te ht
  obtain ⟨h3, h4⟩ := C23_inference_sound k' r' te' ht'
  have hg : te.gram = te'.gram := by
    rw [NE.grammar, hrr] at h1
    rw [NE.grammar, h1] at h3
    exact Option.some.inj h3
  refine ⟨hg, ?_⟩
  obtain ⟨a1, a2, a3⟩ := C24_principal k r te te'.ty ht (by rw [hg]; exact h4)
  obtain ⟨b1, b2, b3⟩ := C24_principal k' r' te' te.ty ht' (by rw [← hg]; exact h2)
  exact Ty.le_antisymm ⟨a1, a2, a3⟩ ⟨b1, b2, b3⟩

/-- **C78.** If parts of an accepted program are replaced by accepted grammars with the same words, the program
is still accepted, describes the same words, and has the same type. -/
theorem C78_replace (e e' : NE) (te : TE) (hs : Core.Swap Core.SameWords e.erase e'.erase) (h : Accepted e te) :
    ∃ te', Accepted e' te' ∧ (∀ w, te'.gram.language w ↔ te.gram.language w) ∧ te'.ty = te.ty := by
  obtain ⟨te', h1, h2, h3, h4, h5⟩ := C78_narrow e e' te (hs.mono fun _ _ h => h.narrows) h
  obtain ⟨te2, g1, g2, g3, g4, g5⟩ := C78_narrow e' e te' (hs.symm fun _ _ h => h.symm.narrows) h1
  obtain ⟨hg, ht⟩ := h.unique g1
  rw [← hg] at g2
  rw [← ht] at g3 g4 g5
  exact ⟨te', h1, fun w => ⟨h2 w, g2 w⟩, Ty.le_antisymm ⟨h3, h4, h5⟩ ⟨g3, g4, g5⟩⟩

/-- **C78** (equivalence). So a program is accepted iff the program with the replaced parts is. -/
theorem C78_accepted_iff (e e' : NE) (hs : Core.Swap Core.SameWords e.erase e'.erase) :
    (∃ te, Accepted e te) ↔ ∃ te, Accepted e' te :=
  ⟨fun ⟨te, h⟩ => by obtain ⟨te', h', _⟩ := C78_replace e e' te hs h; exact ⟨te', h'⟩,
    fun ⟨te, h⟩ => by obtain ⟨te', h', _⟩ := C78_replace e' e te (hs.symm fun _ _ h => h.symm) h; exact ⟨te', h'⟩⟩

/-- **C78** (parsers). The generated parsers of the two programs accept the same texts. -/
theorem C78_same_texts (n n' : Nat) (e e' r r' : NE) (te te' : TE) (s s' : BState) (id id' : Nat)
    (hs : Core.Swap Core.SameWords e.erase e'.erase) (hr : reduce n e = .ok r) (hr' : reduce n' e' = .ok r')
    (hu : r.unaryFix) (hu' : r'.unaryFix) (hc : Compiled r te s id) (hc' : Compiled r' te' s' id')
    (hn : NoSharingConflict te) (hn' : NoSharingConflict te') (text : List Char) :
    (∃ t, Parses s id text (.ok t)) ↔ ∃ t, Parses s' id' text (.ok t) := by
  obtain ⟨k, hk⟩ := hc.typed
  obtain ⟨k', hk'⟩ := hc'.typed
  obtain ⟨te2, h1, h2, _⟩ := C78_replace e e' te hs ⟨n, k, r, hr, hu, hk⟩
  obtain ⟨hg, _⟩ := h1.unique ⟨n', k', r', hr', hu', hk'⟩
  rw [hc.accepts hn, hc'.accepts hn', ← h2 text, hg]

/-! ## Examples -/

private def ri : Info := ⟨none, 0⟩
private def rl (l : List Char) : NE := .lit ri l
private def rx : Name := .newVariable (.spanless "x")
private def rcat (a : NE) (l : List NE) : NE := .cat ri a (l.map fun b => (0, b))
private def ralt (a : NE) (l : List NE) : NE := .alt ri a (l.map fun b => (0, b))
private def rmu (b : NE) : NE := .fix ri (.lam ri [rx] b)

/-- `!(/x/ "a" . x | "b")`: any number of `a`s and a `b`. -/
def exOneByOne : NE := rmu (ralt (rcat (rl ['a']) [.var ri 0]) [rl ['b']])

/-- `!(/x/ "a" . ("a" . x | "b") | "b")`: the same, reading two `a`s at a time. -/
def exTwoByTwo : NE := rmu (ralt (rcat (rl ['a']) [ralt (rcat (rl ['a']) [.var ri 0]) [rl ['b']]]) [rl ['b']])

/-- `let opt x = x | _; "(" . opt p . ")"` for a given `p`. -/
def exAround (p : NE) : NE :=
  .letE ri rx (.lam ri [rx] (ralt (.var ri 0) [.eps ri])) (rcat (rl ['(']) [.call ri (.var ri 0) [p], rl [')']])

theorem exOne_accepted : ∃ te, Accepted exOneByOne te ∧ te.gram = .fix (.alt [.cat [.lit ['a'], .var 0], .lit ['b']]) :=
  ⟨_, ⟨8, 8, _, rfl, rfl, rfl⟩, rfl⟩

theorem exTwo_accepted : ∃ te, Accepted exTwoByTwo te ∧
    te.gram = .fix (.alt [.cat [.lit ['a'], .alt [.cat [.lit ['a'], .var 0], .lit ['b']]], .lit ['b']]) :=
  ⟨_, ⟨8, 8, _, rfl, rfl, rfl⟩, rfl⟩

theorem exOne_language (w : List Char) :
    (Gram.fix (.alt [.cat [.lit ['a'], .var 0], .lit ['b']])).language w ↔ ∃ n, w = List.replicate n 'a' ++ ['b'] := by
  constructor
  · intro h
    refine h (fun w => ∃ n, w = List.replicate n 'a' ++ ['b']) ?_
    rintro v (⟨_, _, rfl, rfl, _, _, rfl, ⟨n, rfl⟩, rfl⟩ | rfl | h)
    · exact ⟨n + 1, by simp [List.replicate_succ]⟩
    · exact ⟨0, rfl⟩
    · cases h
  · rintro ⟨n, rfl⟩ X hX
    induction n with
    | zero => exact hX _ (.inr (.inl rfl))
    | succ n ih =>
      refine hX _ (.inl ⟨['a'], _, ?_, rfl, _, [], (List.append_nil _).symm, ih, rfl⟩)
      simp [List.replicate_succ]

theorem exTwo_language (w : List Char) :
    (Gram.fix (.alt [.cat [.lit ['a'], .alt [.cat [.lit ['a'], .var 0], .lit ['b']]], .lit ['b']])).language w ↔
      ∃ n, w = List.replicate n 'a' ++ ['b'] := by
  constructor
  · intro h
    refine h (fun w => ∃ n, w = List.replicate n 'a' ++ ['b']) ?_
    rintro v (⟨_, _, rfl, rfl, _, _, rfl, ⟨_, _, rfl, rfl, _, _, rfl, ⟨n, rfl⟩, rfl⟩ | rfl | h, rfl⟩ | rfl | h)
    · exact ⟨n + 2, by simp [List.replicate_succ]⟩
    · exact ⟨1, rfl⟩
    · cases h
    · exact ⟨0, rfl⟩
    · cases h
  · rintro ⟨n, rfl⟩ X hX
    suffices X (List.replicate n 'a' ++ ['b']) ∧ X (List.replicate (n + 1) 'a' ++ ['b']) from this.1
    have h0 : X ['b'] := hX _ (.inr (.inl rfl))
    induction n with
    | zero => exact ⟨h0, hX _ (.inl ⟨['a'], ['b'], rfl, rfl, ['b'], [], rfl, .inr (.inl rfl), rfl⟩)⟩
    | succ n ih =>
      refine ⟨ih.2, hX _ (.inl ⟨['a'], List.replicate (n + 1) 'a' ++ ['b'], by simp [List.replicate_succ], rfl, _, [],
        (List.append_nil _).symm, .inl ⟨['a'], List.replicate n 'a' ++ ['b'], by simp [List.replicate_succ], rfl, _, [],
        (List.append_nil _).symm, ih.1, rfl⟩, rfl⟩)⟩

theorem exSame : Core.SameWords exOneByOne.erase exTwoByTwo.erase := by
  obtain ⟨te, h1, h2⟩ := exOne_accepted
  obtain ⟨te', h3, h4⟩ := exTwo_accepted
  refine ⟨_, _, te, te', rfl, rfl, h1, h3, ?_, ?_, fun w => ?_⟩
  · rw [h2]
    exact ⟨⟨['b'], (exOne_language _).2 ⟨0, rfl⟩⟩, by simp [Gram.NoEmpty, Gram.NoEmptyL]⟩
  · rw [h4]
    exact ⟨⟨['b'], (exTwo_language _).2 ⟨0, rfl⟩⟩, by simp [Gram.NoEmpty, Gram.NoEmptyL]⟩
  · rw [h2, h4, exOne_language, exTwo_language]

/-- The hypotheses of `C78_replace` are met. -/
example : Core.Swap Core.SameWords (exAround exOneByOne).erase (exAround exTwoByTwo).erase ∧ ∃ te, Accepted (exAround exOneByOne) te :=
  ⟨.letE _ _ _ _ (.refl _) (.cat _ _ (.cons _ _ _ _ (.refl _) (.cons _ _ _ _ (.call _ _ _ _ (.refl _)
    (.cons _ _ _ _ (.part _ _ exSame) .nil)) (.cons _ _ _ _ (.refl _) .nil)))), _, 20, 8, _, rfl, rfl, rfl⟩

/-- And those of `C78_same_texts`; the parsers accept `(aab)`. -/
example : ∃ r r' te te' s s' id id', reduce 20 (exAround exOneByOne) = .ok r ∧ reduce 20 (exAround exTwoByTwo) = .ok r' ∧
    r.unaryFix ∧ r'.unaryFix ∧ Compiled r te s id ∧ Compiled r' te' s' id' ∧ NoSharingConflict te ∧ NoSharingConflict te' ∧
    ∃ t, Parses s' id' ['(', 'a', 'a', 'b', ')'] (.ok t) :=
  ⟨_, _, _, _, _, _, _, _, rfl, rfl, rfl, rfl, ⟨⟨8, rfl⟩, ⟨some, some⟩, rfl⟩, ⟨⟨8, rfl⟩, ⟨some, some⟩, rfl⟩,
    TE.shareSafe_sound (by decide), TE.shareSafe_sound (by decide), _, by simp, 30, rfl⟩

/-- Narrowing: only `b` instead of any number of `a`s and a `b`. -/
theorem exNarrow : Core.Narrows exOneByOne.erase (rl ['b']).erase := by
  obtain ⟨te, h1, h2⟩ := exOne_accepted
  refine ⟨_, _, te, .lit none ['b'], rfl, rfl, h1, ⟨8, 8, rl ['b'], rfl, rfl, rfl⟩, trivial, fun w hw => ?_⟩
  rw [h2, exOne_language]
  exact ⟨0, hw⟩

example : Core.Swap Core.Narrows (exAround exOneByOne).erase (exAround (rl ['b'])).erase :=
  .letE _ _ _ _ (.refl _) (.cat _ _ (.cons _ _ _ _ (.refl _) (.cons _ _ _ _ (.call _ _ _ _ (.refl _)
    (.cons _ _ _ _ (.part _ _ exNarrow) .nil)) (.cons _ _ _ _ (.refl _) .nil))))

/-- **C78** (unproductive fix points). The assumption that the fix points of the replacement match something
is needed: `"a"` and `"a" | !(/x/ "b" . x)` are both accepted and have the same words, and `"a" | "b"` is
accepted, but `("a" | !(/x/ "b" . x)) | "b"` is not. -/
theorem C78_needs_productive : ∃ p p' te te', Accepted p te ∧ Accepted p' te' ∧ (∀ w, te'.gram.language w ↔ te.gram.language w) ∧
    (∃ t, Accepted (ralt p [rl ['b']]) t) ∧ ¬ ∃ t, Accepted (ralt p' [rl ['b']]) t := by
  refine ⟨rl ['a'], ralt (rl ['a']) [rmu (rcat (rl ['b']) [.var ri 0])], .lit none ['a'], _, ⟨8, 8, _, rfl, rfl, rfl⟩,
    ⟨8, 8, _, rfl, rfl, rfl⟩, fun w => ?_, ⟨_, 8, 8, _, rfl, rfl, rfl⟩, ?_⟩
  · constructor
    · rintro (h | h | h)
      · exact h
      · exact (h (fun _ => False) (by rintro v ⟨_, _, _, _, _, _, _, h, _⟩; exact h)).elim
      · exact h.elim
    · exact .inl
  · rintro ⟨t, n, k, r, hr, hu, ht⟩
    have h8 : reduce 8 (ralt (ralt (rl ['a']) [rmu (rcat (rl ['b']) [.var ri 0])]) [rl ['b']]) =
        .ok (ralt (ralt (rl ['a']) [rmu (rcat (rl ['b']) [.var ri 0])]) [rl ['b']]) := rfl
    have hrr := reduceC_fuel_independent (n := n) (m := 8) (e := (ralt (ralt (rl ['a']) [rmu (rcat (rl ['b']) [.var ri 0])]) [rl ['b']]).erase)
      (by rw [reduce_ok_erase hr]; simp) (by rw [reduce_ok_erase h8]; simp)
    rw [reduce_ok_erase hr, reduce_ok_erase h8] at hrr
    have hrr := Out.ok.inj hrr
    obtain ⟨h1, h2⟩ := C23_inference_sound k r t ht
    rw [NE.grammar, hrr] at h1
    have h3 : ∃ x, (inferTop 8 (ralt (ralt (rl ['a']) [rmu (rcat (rl ['b']) [.var ri 0])]) [rl ['b']]) ⟨[], []⟩).1 = .err x := ⟨_, rfl⟩
    obtain ⟨x, h3⟩ := h3
    exact C24_failure_is_untypable 8 _ x _ _ h3 h1 h2

end Chomp
