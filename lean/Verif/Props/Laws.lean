import Verif.Gram.Laws
import Verif.Props.Order
import Verif.Props.Parser

/-!
# C70: laws of the algebra

Rewriting a program with the laws of alternation, concatenation and fix points (`Core.Law`), anywhere in
it – also inside macros, their arguments and definitions – neither makes an accepted program
unacceptable nor changes what its parser accepts.
-/

namespace Chomp

/-! ### Settled expressions -/

theorem settled_of_gram' {u : Nat → Bool} (a : Core) :
    (∀ g, a.gram u = some g → a.settled) ∧ ∀ n c g, a = .lam n c → c.gram u = some g → c.settled := by
  induction a using Core.ind with
  | eps => exact ⟨fun _ _ => trivial, by intro _ _ _ h; cases h⟩
  | lit s => exact ⟨fun _ _ => trivial, by intro _ _ _ h; cases h⟩
  | var k => exact ⟨fun _ _ => trivial, by intro _ _ _ h; cases h⟩
  | cat l ih =>
    refine ⟨fun g hg => ?_, by intro _ _ _ h; cases h⟩
    rw [Core.gram, Option.map_eq_some_iff] at hg
    obtain ⟨gs, hg, _⟩ := hg
    rw [Core.settled, Core.settledL_iff]
    intro e he
    obtain ⟨g, hg⟩ := gramL_mem hg e he
    exact (ih e he).1 g hg
  | alt l ih =>
    refine ⟨fun g hg => ?_, by intro _ _ _ h; cases h⟩
    rw [Core.gram, Option.map_eq_some_iff] at hg
    obtain ⟨gs, hg, _⟩ := hg
    rw [Core.settled, Core.settledL_iff]
    intro e he
    obtain ⟨g, hg⟩ := gramL_mem hg e he
    exact (ih e he).1 g hg
  | fix b ih =>
    refine ⟨fun g hg => ?_, by intro _ _ _ h; cases h⟩
    cases b with
    | lam n c =>
      simp only [Core.gram] at hg
      split at hg
      · rw [Option.map_eq_some_iff] at hg
        obtain ⟨gb, h1, _⟩ := hg
        exact ih.2 n c gb rfl h1
      · cases hg
    | _ => simp only [Core.gram] at hg; cases hg
  | lam n b ih =>
    refine ⟨fun g hg => ?_, ?_⟩
    · simp only [Core.gram] at hg; cases hg
    · intro n' c g h hg
      cases h
      exact ih.1 g hg
  | call o a _ _ => exact ⟨(by intro g h; simp only [Core.gram] at h; cases h), (by intro _ _ _ h; cases h)⟩
  | letE b c _ _ => exact ⟨(by intro g h; simp only [Core.gram] at h; cases h), (by intro _ _ _ h; cases h)⟩

/-- A grammar is fully evaluated. -/
theorem settled_of_gram {u : Nat → Bool} {a : Core} {g : Gram} (h : a.gram u = some g) : a.settled :=
  (settled_of_gram' a).1 g h

theorem settled_step' {u : Nat → Bool} {a b : Core} (h : Core.Step a b) :
    (a.settled → b.settled ∧ b.gram u = none ∧ ((∀ n c, a ≠ .lam n c) → ∀ n c, b ≠ .lam n c)) ∧
      ∀ n c, a = .lam n c → c.settled → ∃ c', b = .lam n c' ∧ c'.settled ∧ c'.gram u = none := by
  induction h with
  | cat pre e e' post _ ih =>
    refine ⟨fun hs => ?_, by intro _ _ h; cases h⟩
    rw [Core.settled, Core.settledL_iff] at hs
    obtain ⟨h1, h2, _⟩ := ih.1 (hs e (by simp))
    refine ⟨?_, ?_, by intro _ _ _ h; cases h⟩
    · rw [Core.settled, Core.settledL_iff]
      intro x hx
      simp only [List.mem_append, List.mem_cons] at hx
      rcases hx with hx | rfl | hx
      · exact hs x (by simp [hx])
      · exact h1
      · exact hs x (by simp [hx])
    · cases hg : (Core.cat (pre ++ e' :: post)).gram u with
      | none => rfl
      | some g =>
        rw [Core.gram, Option.map_eq_some_iff] at hg
        obtain ⟨gs, hg, _⟩ := hg
        obtain ⟨g', h'⟩ := gramL_mem hg e' (by simp)
        rw [h2] at h'; cases h'
  | alt pre e e' post _ ih =>
    refine ⟨fun hs => ?_, by intro _ _ h; cases h⟩
    rw [Core.settled, Core.settledL_iff] at hs
    obtain ⟨h1, h2, _⟩ := ih.1 (hs e (by simp))
    refine ⟨?_, ?_, by intro _ _ _ h; cases h⟩
    · rw [Core.settled, Core.settledL_iff]
      intro x hx
      simp only [List.mem_append, List.mem_cons] at hx
      rcases hx with hx | rfl | hx
      · exact hs x (by simp [hx])
      · exact h1
      · exact hs x (by simp [hx])
    · cases hg : (Core.alt (pre ++ e' :: post)).gram u with
      | none => rfl
      | some g =>
        rw [Core.gram, Option.map_eq_some_iff] at hg
        obtain ⟨gs, hg, _⟩ := hg
        obtain ⟨g', h'⟩ := gramL_mem hg e' (by simp)
        rw [h2] at h'; cases h'
  | fix b b' hbb ih =>
    refine ⟨fun hs => ?_, by intro _ _ h; cases h⟩
    have hl : (∃ n c, b = .lam n c) ∨ ∀ n c, b ≠ .lam n c := by
      cases b with
      | lam n c => exact .inl ⟨n, c, rfl⟩
      | _ => right; intro _ _ h; cases h
    rcases hl with ⟨n, c, rfl⟩ | hl
    · obtain ⟨c', rfl, h1, h2⟩ := ih.2 n c rfl hs
      exact ⟨h1, by simp [Core.gram, h2], by intro _ _ _ h; cases h⟩
    · have hb : b.settled := by
        cases b with
        | lam n c => exact absurd rfl (hl n c)
        | _ => simpa only [Core.settled] using hs
      obtain ⟨h1, h2, h3⟩ := ih.1 hb
      have h4 := h3 hl
      refine ⟨settled_fix h1 h4, ?_, by intro _ _ _ h; cases h⟩
      cases b' with
      | lam n c => exact absurd rfl (h4 n c)
      | _ => rfl
  | lam n b b' _ ih =>
    refine ⟨fun _ => ⟨trivial, rfl, fun h => absurd rfl (h n b)⟩, ?_⟩
    intro n' c h hs
    cases h
    obtain ⟨h1, h2, _⟩ := ih.1 hs
    exact ⟨b', rfl, h1, h2⟩
  | _ => exact ⟨fun h => by simp only [Core.settled] at h, by intro _ _ h; cases h⟩

theorem settled_steps_gram {u : Nat → Bool} {a b : Core} (h : Core.Steps a b) :
    a.settled → b.settled ∧ ∀ g, b.gram u = some g → a = b := by
  induction h with
  | refl => exact fun h => ⟨h, fun _ _ => rfl⟩
  | tail _ hs ih =>
    intro ha
    obtain ⟨h1, _⟩ := ih ha
    obtain ⟨h2, h3, _⟩ := (settled_step' (u := u) hs).1 h1
    refine ⟨h2, fun g hg => ?_⟩
    rw [h3] at hg
    cases hg

/-- If some order of evaluation ends in a grammar, the reducer ends in that grammar. -/
theorem reduce_of_gram {u : Nat → Bool} {e : NE} {s : Core} {g : Gram} (h : Core.Steps e.erase s) (hg : s.gram u = some g) :
    ∃ n r, reduce n e = .ok r ∧ r.erase = s := by
  have hs := settled_of_gram hg
  obtain ⟨n, r, hr⟩ := (C59_reduces_iff e).2 ⟨s, h, hs⟩
  exact ⟨n, r, hr, (settled_steps_gram (C59_result_of_every_order n e r hr s h hs) (C18_reduced_settled n e r hr)).2 g hg⟩

theorem Core.Refacs.steps {a b a' : Core} (h : Core.Refacs a b) (hs : Core.Steps a a') :
    ∃ b', Core.Steps b b' ∧ Core.Refacs a' b' := by
  induction h with
  | refl => exact ⟨a', hs, .refl _⟩
  | tail _ h ih =>
    obtain ⟨b1, h1, h2⟩ := ih
    obtain ⟨b2, h3, h4⟩ := h.steps h1
    exact ⟨b2, h3, .tail h2 h4⟩

theorem Core.Refacs.gram {a b : Core} {g : Gram} (h : Core.Refacs a b) (hg : a.gram unary = some g) :
    ∃ g', b.gram unary = some g' ∧ g.Keeps g' := by
  induction h with
  | refl => exact ⟨g, hg, .refl g⟩
  | tail _ h ih =>
    obtain ⟨g1, h1, h2⟩ := ih
    obtain ⟨g2, h3, h4⟩ := h.gram.1 g1 h1
    exact ⟨g2, h3, h2.trans h4⟩

/-! ## C70 -/

/-- **C70** (acceptance and language). Let a program `e` reduce to `r`, accepted by type inference, with
every fix point over a lambda with one parameter.  Then every program `e'` obtained from `e` by applying
laws reduces, is accepted, and its grammar has the same language; the inferred type is at least as
precise. -/
theorem C70_laws_preserve (n k : Nat) (e e' r : NE) (te : TE) (hl : Core.Refacs e.erase e'.erase)
    (hr : reduce n e = .ok r) (ht : (inferTop k r ⟨[], []⟩).1 = .ok te) (hu : r.unaryFix) :
    ∃ n' k' r' te', reduce n' e' = .ok r' ∧ (inferTop k' r' ⟨[], []⟩).1 = .ok te' ∧ r'.unaryFix ∧
      (∀ w, te'.gram.language w ↔ te.gram.language w) ∧
      (te'.ty.nullable = true → te.ty.nullable = true) ∧ (∀ c, c ∈ te'.ty.first → c ∈ te.ty.first) ∧
      ∀ c, c ∈ te'.ty.flast → c ∈ te.ty.flast := by
  obtain ⟨g, hg⟩ := Option.isSome_iff_exists.1 hu
  obtain ⟨s', h1, h2⟩ := hl.steps (C17_reduce_steps n e r hr)
  obtain ⟨g', hg', hk⟩ := h2.gram hg
  obtain ⟨n', r', hr', rfl⟩ := reduce_of_gram h1 hg'
  obtain ⟨h3, h4⟩ := C23_inference_sound k r te ht
  have hw := gram_weaken (v := fun _ => true) (by simp) _ _ hg
  have hw' : r'.grammar = some g' := gram_weaken (v := fun _ => true) (by simp) _ _ hg'
  rw [NE.grammar, hw] at h3
  cases h3
  have h5 := hk.ty _ _ _ h4
  obtain ⟨te', ht'⟩ := (C24_accepts_iff_typable r' _ (Nat.le_refl _)).2 ⟨g', te.ty, hw', h5⟩
  have h6 := (C23_inference_sound _ r' te' ht').1
  rw [hw'] at h6
  have h7 : g' = te'.gram := Option.some.inj h6
  subst h7
  exact ⟨n', _, r', te', hr', ht', by rw [NE.unaryFix, hg']; rfl, fun w => (hk.lang _ w).symm,
    C24_principal _ r' te' te.ty ht' h5⟩

/-- **C70** (the reducer). Laws commute with evaluation: whatever a program evaluates to, the rewritten
program evaluates to the same up to laws. -/
theorem C70_laws_commute (e e' : NE) (s : Core) (hl : Core.Refacs e.erase e'.erase) (h : Core.Steps e.erase s) :
    ∃ s', Core.Steps e'.erase s' ∧ Core.Refacs s s' := hl.steps h

/-- **C70** (parsers). The generated parsers of the two programs accept the same texts. -/
theorem C70_same_texts (n n' : Nat) (e e' r r' : NE) (te te' : TE) (s s' : BState) (id id' : Nat)
    (hl : Core.Refacs e.erase e'.erase) (hr : reduce n e = .ok r) (hr' : reduce n' e' = .ok r')
    (hu : r.unaryFix) (hc : Compiled r te s id) (hc' : Compiled r' te' s' id')
    (hn : NoSharingConflict te) (hn' : NoSharingConflict te') (text : List Char) :
    (∃ t, Parses s id text (.ok t)) ↔ ∃ t, Parses s' id' text (.ok t) := by
  obtain ⟨k, hk⟩ := hc.typed
  obtain ⟨n2, k2, r2, te2, h1, h2, _, h3, _⟩ := C70_laws_preserve n k e e' r te hl hr hk hu
  have hrr : r2.erase = r'.erase := by
    have h4 := reduce_ok_erase h1
    have h5 := reduce_ok_erase hr'
    have := reduceC_fuel_independent (n := n2) (m := n') (e := e'.erase) (by rw [h4]; simp) (by rw [h5]; simp)
    rw [h4, h5] at this
    exact Out.ok.inj this
  have hte : te2.gram = te'.gram := by
    have h4 := (C23_inference_sound k2 r2 te2 h2).1
    have h5 := hc'.grammar
    rw [NE.grammar, hrr] at h4
    rw [NE.grammar, h4] at h5
    exact Option.some.inj h5
  rw [hc.accepts hn, hc'.accepts hn', ← h3 text, hte]

/-! ## Examples -/

private def li : Info := ⟨none, 0⟩
private def ll (l : List Char) : NE := .lit li l
private def lx : Name := .newVariable (.spanless "x")
private def lcat (a : NE) (l : List NE) : NE := .cat li a (l.map fun b => (0, b))
private def lalt (a : NE) (l : List NE) : NE := .alt li a (l.map fun b => (0, b))

/-- `let opt x = x | _; !(/x/ "ab" . opt x | "c")`, with the definition of `opt` as a lambda. -/
def exLawsBefore : NE :=
  .letE li lx (.lam li [lx] (lalt (.var li 0) [.eps li]))
    (.fix li (.lam li [lx] (lalt (lcat (ll ['a', 'b']) [.call li (.var li 1) [.var li 0]]) [ll ['c']])))

/-- The same with the branches of both alternations exchanged, the literal split, and `_` written as an
empty literal: `let opt x = "" | x; !(/x/ "c" | ("a" . "b") . opt x)`. -/
def exLawsAfter : NE :=
  .letE li lx (.lam li [lx] (lalt (ll []) [.var li 0]))
    (.fix li (.lam li [lx] (lalt (ll ['c']) [lcat (lcat (ll ['a']) [ll ['b']]) [.call li (.var li 1) [.var li 0]]])))

theorem exLaws_related : Core.Refacs exLawsBefore.erase exLawsAfter.erase := by
  refine .tail (.refl _) (.letE _ _ _ _ (.lam _ _ _ (.law _ (.alt [.var 0, .lit []]) _
    (.alt _ _ (.cons _ _ _ _ (.var 0) (.cons _ _ _ _ (.law _ _ _ .eps .epsLit) .nil))) (.altPerm _ _ (List.Perm.swap _ _ _))))
    (.fix _ _ (.lam _ _ _ (.law _ (.alt [.cat [.cat [.lit ['a'], .lit ['b']], .call (.var 1) [.var 0]], .lit ['c']]) _
      (.alt _ _ (.cons _ _ _ _ (.cat _ _ (.cons _ _ _ _ (.law _ _ _ (.lit _) (.litSplit ['a'] ['b'] (by simp)))
        (.cons _ _ _ _ (.refl _) .nil))) (.cons _ _ _ _ (.lit _) .nil))) (.altPerm _ _ (List.Perm.swap _ _ _))))))

example : ∃ r te, reduce 20 exLawsBefore = .ok r ∧ (inferTop 8 r ⟨[], []⟩).1 = .ok te ∧ r.unaryFix ∧
    Core.Refacs exLawsBefore.erase exLawsAfter.erase := ⟨_, _, rfl, rfl, rfl, exLaws_related⟩

/-- Both compile, without conflict, and the parser of the second accepts `ababc`. -/
theorem exLaws_compiled : ∃ r r' te te' s s' id id', reduce 20 exLawsBefore = .ok r ∧ reduce 20 exLawsAfter = .ok r' ∧
    r.unaryFix ∧ Compiled r te s id ∧ Compiled r' te' s' id' ∧ NoSharingConflict te ∧ NoSharingConflict te' ∧
    ∃ t, Parses s' id' ['a', 'b', 'a', 'b', 'c'] (.ok t) :=
  ⟨_, _, _, _, _, _, _, _, rfl, rfl, rfl, ⟨⟨8, rfl⟩, ⟨some, some⟩, rfl⟩, ⟨⟨8, rfl⟩, ⟨some, some⟩, rfl⟩,
    TE.shareSafe_sound (by decide), TE.shareSafe_sound (by decide), _, by simp, 30, rfl⟩

/-- A fix point and its unfolding. -/
example : Core.Refacs (.fix (.lam 1 (.alt [.cat [.lit ['a'], .var 0], .lit ['b']])))
    (.alt [.cat [.lit ['a'], .fix (.lam 1 (.alt [.cat [.lit ['a'], .var 0], .lit ['b']]))], .lit ['b']]) :=
  .tail (.refl _) (.law _ _ _ (.refl _) (.unfold _))

/-- Why concatenation is not distributed from the left: `"a" . ("b" | "c")` is accepted and
`"a" . "b" | "a" . "c"` is not. -/
example : (∃ te, (inferTop 8 (lcat (ll ['a']) [lalt (ll ['b']) [ll ['c']]]) ⟨[], []⟩).1 = .ok te) ∧
    ∃ x, (inferTop 8 (lalt (lcat (ll ['a']) [ll ['b']]) [lcat (ll ['a']) [ll ['c']]]) ⟨[], []⟩).1 = .err x :=
  ⟨⟨_, rfl⟩, _, rfl⟩

/-- Why concatenations are only grouped from the left: `"a" . ("b" | _) . "c"` is accepted and
`"a" . (("b" | _) . "c")` is not. -/
example : (∃ te, (inferTop 8 (lcat (ll ['a']) [lalt (ll ['b']) [.eps li], ll ['c']]) ⟨[], []⟩).1 = .ok te) ∧
    ∃ x, (inferTop 8 (lcat (ll ['a']) [lcat (lalt (ll ['b']) [.eps li]) [ll ['c']]]) ⟨[], []⟩).1 = .err x :=
  ⟨⟨_, rfl⟩, _, rfl⟩

/-- Why `_` is only introduced after another part: `"a"` is accepted and `_ . "a"` is not. -/
example : (∃ te, (inferTop 8 (ll ['a']) ⟨[], []⟩).1 = .ok te) ∧
    ∃ x, (inferTop 8 (lcat (.eps li) [ll ['a']]) ⟨[], []⟩).1 = .err x := ⟨⟨_, rfl⟩, _, rfl⟩

end Chomp
