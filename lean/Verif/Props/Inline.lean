import Verif.Ast.Confluence
import Verif.Props.Laws
import Verif.Props.Driver

/-!
# C71: definitions and functions

Using a definition or calling a function means the same as writing out its body: programs that differ
only in this – in any number of places, in either direction, also inside functions that are never called
– are both accepted, with the same grammar, or both not.
-/

namespace Chomp

/-- **C71** (evaluation). If two programs are interconvertible by expanding calls and lets, the reducer
succeeds on both or on neither. -/
theorem C71_reduces_iff (e e' : NE) (h : Core.Conv e.erase e'.erase) :
    (∃ n r, reduce n e = .ok r) ↔ ∃ n r, reduce n e' = .ok r := by
  have key : ∀ e e' : NE, Core.Conv e.erase e'.erase → (∃ n r, reduce n e = .ok r) → ∃ n r, reduce n e' = .ok r := by
    rintro e e' h ⟨n, r, hr⟩
    obtain ⟨d, h1, h2⟩ := h.join
    obtain ⟨t, h3, h4⟩ := (C17_reduce_steps n e r hr).confluent h1
    exact (C59_reduces_iff e').2 ⟨t, h2.trans h4, (settled_steps_gram (u := fun _ => true) h3 (C18_reduced_settled n e r hr)).1⟩
  exact ⟨key e e' h, key e' e h.symm⟩

/-- **C71** (results). The results are interconvertible; they are the same if one of them is a grammar. -/
theorem C71_same_result (n n' : Nat) (e e' r r' : NE) (h : Core.Conv e.erase e'.erase) (hr : reduce n e = .ok r)
    (hr' : reduce n' e' = .ok r') : Core.Conv r.erase r'.erase ∧ (r.grammar.isSome → r'.erase = r.erase) := by
  obtain ⟨d, h1, h2⟩ := h.join
  obtain ⟨t, h3, h4⟩ := (C17_reduce_steps n e r hr).confluent h1
  obtain ⟨t', h5, h6⟩ := (C17_reduce_steps n' e' r' hr').confluent (h2.trans h4)
  have conv : ∀ {a b : Core}, Core.Steps a b → Core.Conv a b := by
    intro a b h
    induction h with
    | refl => exact .refl _
    | tail _ h ih => exact .step ih h
  refine ⟨(conv (h3.trans h6)).trans (conv h5).symm, fun hs => ?_⟩
  obtain ⟨g, hg⟩ := Option.isSome_iff_exists.1 hs
  have stay : ∀ {b : Core}, Core.Steps r.erase b → b = r.erase := by
    intro b h
    induction h with
    | refl => rfl
    | tail _ h ih =>
      rw [ih] at h
      rw [NE.grammar, gram_no_step h] at hg
      cases hg
  have ht := stay (h3.trans h6)
  subst ht
  exact (settled_steps_gram h5 (C18_reduced_settled n' e' r' hr')).2 g hg

/-- **C71.** If a program is accepted, then so is every program obtained by expanding or introducing
definitions and functions, with the same typed grammar up to names. -/
theorem C71_definitions_preserve (n k : Nat) (e e' r : NE) (te : TE) (h : Core.Conv e.erase e'.erase)
    (hr : reduce n e = .ok r) (ht : (inferTop k r ⟨[], []⟩).1 = .ok te) :
    ∃ n' r' te', reduce n' e' = .ok r' ∧ (inferTop k r' ⟨[], []⟩).1 = .ok te' ∧ te'.strip = te.strip ∧
      te'.gram = te.gram := by
  obtain ⟨n', r', hr'⟩ := (C71_reduces_iff e e' h).1 ⟨n, r, hr⟩
  have h1 := (C71_same_result n n' e e' r r' h hr hr').2 (by rw [(C23_inference_sound k r te ht).1]; rfl)
  have h2 := C20_inference_ignores_names k r r' h1.symm
  rw [ht] at h2
  cases h3 : (inferTop k r' ⟨[], []⟩).1 with
  | ok te' =>
    rw [h3] at h2
    refine ⟨n', r', te', hr', h3, h2.symm, ?_⟩
    have h4 := (C23_inference_sound k r te ht).1
    have h5 := (C23_inference_sound k r' te' h3).1
    rw [NE.grammar, h1] at h5
    rw [NE.grammar, h5] at h4
    exact Option.some.inj h4
  | err x => rw [h3] at h2; cases h2
  | panic => rw [h3] at h2; cases h2
  | oof => rw [h3] at h2; cases h2

/-- The laws of `Core.Law` and the expansion and introduction of definitions and calls, in any order. -/
inductive Core.Rewrites : Core → Core → Prop
  | refl (e : Core) : Rewrites e e
  | law {a b c : Core} : Rewrites a b → Core.Refac b c → Rewrites a c
  | conv {a b c : Core} : Rewrites a b → Core.Conv b c → Rewrites a c

/-- **C71** (with laws). An accepted program may be rewritten with the laws of C70, and definitions and
functions be expanded and introduced, any number of times and in any order: the program remains
accepted, with the same language. -/
theorem C71_rewriting_preserves (n k : Nat) (e e' r : NE) (te : TE) (h : Core.Rewrites e.erase e'.erase)
    (hr : reduce n e = .ok r) (ht : (inferTop k r ⟨[], []⟩).1 = .ok te) (hu : r.unaryFix) :
    ∃ n' k' r' te', reduce n' e' = .ok r' ∧ (inferTop k' r' ⟨[], []⟩).1 = .ok te' ∧ r'.unaryFix ∧
      ∀ w, te'.gram.language w ↔ te.gram.language w := by
  obtain ⟨g, hg⟩ := Option.isSome_iff_exists.1 hu
  have hw : r.grammar = some g := gram_weaken (v := fun _ => true) (by simp) _ _ hg
  obtain ⟨h1, h2⟩ := C23_inference_sound k r te ht
  rw [hw] at h1
  cases h1
  have key : ∀ {x y : Core}, Core.Rewrites x y → Core.Steps x r.erase →
      ∃ s' g', Core.Steps y s' ∧ s'.gram unary = some g' ∧ te.gram.Keeps g' := by
    intro x y h hx
    induction h with
    | refl => exact ⟨_, _, hx, hg, .refl _⟩
    | law _ h ih =>
      obtain ⟨s1, g1, h3, h4, h5⟩ := ih
      obtain ⟨s2, h6, h7⟩ := h.steps h3
      obtain ⟨g2, h8, h9⟩ := h7.gram.1 g1 h4
      exact ⟨s2, g2, h6, h8, h5.trans h9⟩
    | conv _ h ih =>
      obtain ⟨s1, g1, h3, h4, h5⟩ := ih
      obtain ⟨d, h6, h7⟩ := h.join
      obtain ⟨t, h8, h9⟩ := h3.confluent h6
      have : t = s1 := by
        have stay : ∀ {b : Core}, Core.Steps s1 b → b = s1 := by
          intro b h
          induction h with
          | refl => rfl
          | tail _ h ih =>
            rw [ih] at h
            rw [gram_no_step h] at h4
            cases h4
        exact stay h8
      subst this
      exact ⟨t, g1, h7.trans h9, h4, h5⟩
  obtain ⟨s', g', h3, h4, h5⟩ := key h (C17_reduce_steps n e r hr)
  obtain ⟨n', r', hr', rfl⟩ := reduce_of_gram h3 h4
  have hw' : r'.grammar = some g' := gram_weaken (v := fun _ => true) (by simp) _ _ h4
  obtain ⟨te', ht'⟩ := (C24_accepts_iff_typable r' _ (Nat.le_refl _)).2 ⟨g', te.ty, hw', h5.ty _ _ _ h2⟩
  have h6 := (C23_inference_sound _ r' te' ht').1
  rw [hw'] at h6
  have h7 : g' = te'.gram := Option.some.inj h6
  subst h7
  exact ⟨n', _, r', te', hr', ht', by rw [NE.unaryFix, h4]; rfl, fun w => (h5.lang _ w).symm⟩

/-- **C71** (parsers). The generated parsers of two interconvertible programs accept the same texts. -/
theorem C71_same_texts (n n' : Nat) (e e' r r' : NE) (te te' : TE) (s s' : BState) (id id' : Nat)
    (h : Core.Conv e.erase e'.erase) (hr : reduce n e = .ok r) (hr' : reduce n' e' = .ok r')
    (hc : Compiled r te s id) (hc' : Compiled r' te' s' id') (hn : NoSharingConflict te) (hn' : NoSharingConflict te')
    (text : List Char) (t : Tree) : Parses s id text (.ok t) ↔ Parses s' id' text (.ok t) := by
  have h1 := (C71_same_result n n' e e' r r' h hr hr').2 (by rw [hc.grammar]; rfl)
  have h2 := hc.grammar
  have h3 := hc'.grammar
  rw [NE.grammar, h1] at h3
  rw [NE.grammar, h3] at h2
  rw [C30_parse_tree hc hn, C30_parse_tree hc' hn', Option.some.inj h2]

/-! ## Examples -/

private def ii : Info := ⟨none, 0⟩
private def inm (s : String) : Name := .newVariable (.spanless s)

/-- `let twice x = x . x; let ab = "a" . "b"; twice ab` -/
def exInlineBefore : NE :=
  .letE ii (inm "twice") (.lam ii [inm "x"] (.cat ii (.var ii 0) [(0, .var ii 0)]))
    (.letE ii (inm "ab") (.cat ii (.lit ii ['a']) [(0, .lit ii ['b'])]) (.call ii (.var ii 1) [.var ii 0]))

/-- `let ab = "a" . "b"; ab . ("a" . "b")`: one definition is gone, one use of the other is expanded. -/
def exInlineAfter : NE :=
  .letE ii (inm "ab") (.cat ii (.lit ii ['a']) [(0, .lit ii ['b'])])
    (.cat ii (.var ii 0) [(0, .cat ii (.lit ii ['a']) [(0, .lit ii ['b'])])])

theorem exInline_related : Core.Conv exInlineBefore.erase exInlineAfter.erase := by
  have h1 : Core.Conv exInlineBefore.erase (.letE (.cat [.lit ['a'], .lit ['b']]) (.cat [.var 0, .var 0])) := by
    refine .step (.step (.refl _) (.letE _ _)) ?_
    exact .letBody _ (.call (.lam 1 (.cat [.var 0, .var 0])) [.var 0]) _ (.beta 1 _ _ rfl)
  have h2 : Core.Conv exInlineBefore.erase (.cat [.cat [.lit ['a'], .lit ['b']], .cat [.lit ['a'], .lit ['b']]]) :=
    .step h1 (.letE _ _)
  exact .back h2 (.letE (.cat [.lit ['a'], .lit ['b']]) (.cat [.var 0, .cat [.lit ['a'], .lit ['b']]]))

example : ∃ r te, reduce 20 exInlineBefore = .ok r ∧ (inferTop 8 r ⟨[], []⟩).1 = .ok te ∧ r.unaryFix ∧
    Core.Conv exInlineBefore.erase exInlineAfter.erase := ⟨_, _, rfl, rfl, rfl, exInline_related⟩

example : ∃ r r' te te' s s' id id', reduce 20 exInlineBefore = .ok r ∧ reduce 20 exInlineAfter = .ok r' ∧
    Compiled r te s id ∧ Compiled r' te' s' id' ∧ NoSharingConflict te ∧ NoSharingConflict te' ∧
    ∃ t, Parses s' id' ['a', 'b', 'a', 'b'] (.ok t) :=
  ⟨_, _, _, _, _, _, _, _, rfl, rfl, ⟨⟨8, rfl⟩, ⟨some, some⟩, rfl⟩, ⟨⟨8, rfl⟩, ⟨some, some⟩, rfl⟩,
    TE.shareSafe_sound (by decide), TE.shareSafe_sound (by decide), _, by simp, 30, rfl⟩

/-- Laws and definitions together. -/
example : Core.Rewrites exInlineBefore.erase
    (.letE (.cat [.lit ['a'], .lit ['b']]) (.cat [.var 0, .lit ['a', 'b']])) :=
  .law (.conv (.refl _) exInline_related)
    (.letE _ _ _ _ (.refl _) (.cat _ _ (.cons _ _ _ _ (.refl _) (.cons _ _ _ _ (.law _ _ _ (.refl _) (.litJoin ['a'] ['b'])) .nil))))

end Chomp
