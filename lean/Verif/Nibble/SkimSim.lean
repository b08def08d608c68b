import Verif.Nibble.ScanSim

/-! # The parser follows the automaton also when tokens are left over in parentheses -/

namespace Chomp

section
variable [Reserved]

/-- A run that skips what is left over in parentheses; `k` is what is not skipped. -/
inductive Skim : LState → List (FTok × Nat) → List FTok → LState → Prop
  | nil (σ : LState) : Skim σ [] [] σ
  | keep {σ ρ τ : LState} {t : FTok} {p : Nat} {a : List (FTok × Nat)} {k : List FTok} :
      σ.step t = some ρ → Skim ρ a k τ → Skim σ ((t, p) :: a) (t :: k) τ
  | skip {σ ρ τ : LState} {t : STok} {l : List STok} {q : Nat} {a : List (FTok × Nat)} {k : List FTok} :
      σ.step t.hd = none → σ.step (.cls true) = some ρ → Skim ρ a k τ →
      Skim σ (STok.flatL (t :: l) ++ (.cls true, q) :: a) (.cls true :: k) τ

theorem Skim.append {σ τ ρ : LState} {a b : List (FTok × Nat)} {k k' : List FTok} (h : Skim σ a k τ) (h' : Skim τ b k' ρ) :
    Skim σ (a ++ b) (k ++ k') ρ := by
  induction h with
  | nil => exact h'
  | keep h1 _ ih => exact .keep h1 (ih h')
  | skip h1 h2 _ ih =>
    rw [List.append_assoc]
    exact .skip h1 h2 (ih h')

theorem Skim.run {σ τ : LState} {a : List (FTok × Nat)} {k : List FTok} (h : Skim σ a k τ) : σ.run k = some τ := by
  induction h with
  | nil => rfl
  | keep h1 _ ih => rw [LState.run, h1]; exact ih
  | skip _ h2 _ ih => rw [LState.run, h2]; exact ih

theorem Skim.of_run {σ τ : LState} {a : List (FTok × Nat)} (h : σ.run (a.map (·.1)) = some τ) : Skim σ a (a.map (·.1)) τ := by
  induction a generalizing σ with
  | nil => cases h; exact .nil _
  | cons x a ih =>
    obtain ⟨t, p⟩ := x
    simp only [List.map_cons, LState.run] at h
    cases hs : σ.step t with
    | none => rw [hs] at h; cases h
    | some ρ => rw [hs] at h; exact .keep hs (ih h)

/-- The error is at the first token that is not skipped and cannot follow. -/
def StuckAt (σ : LState) (scope : Option Nat) (ts : List STok) (e : SynErr) : Prop :=
  (∃ a t s b k τ, STok.flatL ts = a ++ (t, s) :: b ∧ Skim σ a k τ ∧ τ.step t = none ∧ τ.step (.cls true) = none ∧ e.loc = some s ∧ AllFit τ e.expected) ∨
  (e.loc = scope ∧ ∃ k τ, Skim σ (STok.flatL ts) k τ ∧ τ.step (.cls true) = none ∧ τ.mode ≠ .done ∧ AllFit τ e.expected)

def SkimsBy {α : Type} (σ : LState) (scope : Option Nat) (ts : List STok) (_ : Option Nat) (Q : α → List STok → LState → Prop) : SR α → Prop
  | .ok (x, r, _) => ∃ pre k τ, ts = pre ++ r ∧ Q x r τ ∧ Skim σ (STok.flatL pre) k τ
  | .err e => StuckAt σ scope ts e
  | .panic => False
  | .oof => True

theorem StuckAt.after {σ τ : LState} {scope : Option Nat} {pre r : List STok} {e : SynErr} {k : List FTok} (h : StuckAt τ scope r e)
    (ha : Skim σ (STok.flatL pre) k τ) : StuckAt σ scope (pre ++ r) e := by
  rcases h with ⟨a, t, s, b, k', τ', h1, h2, h3⟩ | ⟨h0, k', τ', h1, h2⟩
  · exact .inl ⟨STok.flatL pre ++ a, t, s, b, k ++ k', τ', by rw [STok.flatL_append, h1]; simp, ha.append h2, h3⟩
  · exact .inr ⟨h0, k ++ k', τ', by rw [STok.flatL_append]; exact ha.append h1, h2⟩

theorem SkimsBy.bind {α β : Type} {σ : LState} {scope : Option Nat} {ts : List STok} {u : Option Nat} {Q : α → List STok → LState → Prop}
    {Q' : β → List STok → LState → Prop} {x : SR α} {f : α × List STok × Option Nat → SR β} (h : SkimsBy σ scope ts u Q x)
    (hf : ∀ a r u' τ, Q a r τ → SkimsBy τ scope r u' Q' (f (a, r, u'))) : SkimsBy σ scope ts u Q' (x.bind f) := by
  cases x with
  | panic => exact h
  | oof => exact h
  | err e => exact h
  | ok y =>
    obtain ⟨a, r, u'⟩ := y
    obtain ⟨pre, k, τ, rfl, hq, h1⟩ := h
    have h3 := hf a r u' τ hq
    show SkimsBy σ scope (pre ++ r) u Q' (f (a, r, u'))
    cases hx : f (a, r, u') with
    | panic => rw [hx] at h3; exact h3
    | oof => trivial
    | err e => rw [hx] at h3; exact StuckAt.after h3 h1
    | ok z =>
      rw [hx] at h3
      obtain ⟨b, r', u''⟩ := z
      obtain ⟨pre', k', τ', rfl, hq', h3⟩ := h3
      exact ⟨pre ++ pre', k ++ k', τ', by simp, hq', by rw [STok.flatL_append]; exact h1.append h3⟩

theorem SkimsBy.pure {α : Type} {σ : LState} {scope : Option Nat} {ts : List STok} {u : Option Nat} {Q : α → List STok → LState → Prop}
    {x : α} (h : Q x ts σ) : SkimsBy σ scope ts u Q (.ok (x, ts, u)) :=
  ⟨[], [], σ, rfl, h, .nil σ⟩

theorem SkimsBy.one {α : Type} {σ τ : LState} {scope : Option Nat} {t : STok} {r : List STok} {u : Option Nat} {Q : α → List STok → LState → Prop}
    {x : α} (hs : σ.run (t.flat.map (·.1)) = some τ) (h : Q x r τ) : SkimsBy σ scope (t :: r) u Q (.ok (x, r, u)) :=
  ⟨[t], _, τ, rfl, h, Skim.of_run (by rw [STok.flatL, STok.flatL, List.append_nil]; exact hs)⟩

theorem SkimsBy.cons {α : Type} {σ τ : LState} {scope : Option Nat} {t : STok} {r : List STok} {u : Option Nat} {Q : α → List STok → LState → Prop}
    {x : SR α} (hs : σ.run (t.flat.map (·.1)) = some τ) (h : SkimsBy τ scope r u Q x) : SkimsBy σ scope (t :: r) u Q x := by
  classical
  have := SkimsBy.bind (x := (.ok ((), r, u) : SR Unit)) (Q := fun _ r' τ' => r' = r ∧ τ' = τ) (f := fun y => if y.2 = (r, u) then x else .oof)
    (SkimsBy.one (scope := scope) (u := u) hs ⟨rfl, rfl⟩) (Q' := Q) fun a r' u' τ' ⟨h1, h2⟩ => by
      subst h1 h2
      by_cases hu : u' = u
      · subst hu; rw [if_pos rfl]; exact h
      · rw [if_neg (by simpa using hu)]; trivial
  simpa [Out.bind] using this

theorem SkimsBy.fail {α : Type} {σ : LState} {scope : Option Nat} {ts : List STok} {u : Option Nat} {Q : α → List STok → LState → Prop}
    {l : List Expect} (h1 : ∀ t r, ts = t :: r → σ.step t.hd = none) (h2 : σ.step (.cls true) = none ∧ (ts = [] → σ.mode ≠ .done))
    (h3 : AllFit σ l) : SkimsBy σ scope ts u Q (synErr scope ts u l) := by
  cases ts with
  | nil => exact .inr ⟨rfl, [], σ, .nil σ, h2.1, h2.2 rfl, h3⟩
  | cons t r =>
    obtain ⟨b, hb⟩ := t.flat_hd
    exact .inl ⟨[], t.hd, t.span, b ++ STok.flatL r, [], σ, by rw [STok.flatL, hb]; rfl, .nil σ, h1 t r rfl, h2.1, rfl, h3⟩

/-! ## Small parsers -/

theorem identS_skims {σ τ : LState} {scope : Option Nat} {ts : List STok} {u : Option Nat}
    (h1 : ∀ r s, σ.step (.ident r s) = if plainName r s then some τ else none)
    (h2 : ∀ t r, ts = t :: r → (∀ a b c, t ≠ .ident a b c) → σ.step t.hd = none) (h3 : σ.step (.cls true) = none) (h4 : σ.mode ≠ .done) :
    SkimsBy σ scope ts u (fun _ _ τ' => τ' = τ) (identS scope ts u) := by
  have hx : AllFit σ [.ident] := by
    intro k hk
    simp only [List.mem_singleton] at hk
    subst hk
    refine ⟨.ident true "x", ⟨_, _, rfl⟩, ?_⟩
    rw [h1]; simp [plainName]
  unfold identS
  split
  · rename_i raw sym s r
    split
    · rename_i hp
      refine SkimsBy.one ?_ rfl
      simp only [STok.flat, List.map_cons, List.map_nil, LState.run]
      rw [h1, show plainName raw sym = true from hp]; rfl
    · rename_i hp
      refine SkimsBy.fail ?_ ⟨h3, fun _ => h4⟩ hx
      intro t r' ht
      cases ht
      simp only [STok.hd]
      rw [h1]; exact if_neg hp
  · rename_i hne
    refine SkimsBy.fail ?_ (⟨h3, fun _ => h4⟩) hx
    intro t r ht
    exact h2 t r ht fun a b c hc => hne a b c r (by rw [ht, hc])

theorem anyIdentS_skims {σ τ : LState} {scope : Option Nat} {ts : List STok} {u : Option Nat}
    (h1 : ∀ r s, σ.step (.ident r s) = some τ)
    (h2 : ∀ t, (∀ a b, t ≠ .ident a b) → σ.step t = none) (h4 : σ.mode ≠ .done) :
    SkimsBy σ scope ts u (fun _ _ τ' => τ' = τ) (anyIdentS scope ts u) := by
  unfold anyIdentS
  split
  · refine SkimsBy.one ?_ rfl
    simp only [STok.flat, List.map_cons, List.map_nil, LState.run]
    rw [h1]; rfl
  · rename_i hne
    refine SkimsBy.fail ?_ ⟨h2 _ (by simp), fun _ => h4⟩ ?_
    · intro t r ht
      refine h2 _ fun a b hc => ?_
      cases t <;> simp only [STok.hd, reduceCtorEq] at hc
      exact hne _ _ _ _ ht
    · intro k hk
      simp only [List.mem_singleton] at hk
      subst hk
      exact ⟨.ident true "x", ⟨_, _, rfl⟩, by rw [h1]; simp⟩

theorem punctS_skims {c : Char} {σ τ : LState} {scope : Option Nat} {ts : List STok} {u : Option Nat}
    (h1 : σ.step (.punct c) = some τ) (h2 : ∀ t r, ts = t :: r → t.hd ≠ .punct c → σ.step t.hd = none)
    (h3 : σ.step (.cls true) = none ∧ (ts = [] → σ.mode ≠ .done)) : SkimsBy σ scope ts u (fun _ _ τ' => τ' = τ) (punctS c scope ts u) := by
  have hx : AllFit σ [.punct c] := by
    intro k hk
    simp only [List.mem_singleton] at hk
    subst hk
    exact ⟨.punct c, rfl, by rw [h1]; simp⟩
  unfold punctS
  split
  · rename_i d s r
    split
    · rename_i hc
      simp at hc
      subst hc
      refine SkimsBy.one ?_ rfl
      simp only [STok.flat, List.map_cons, List.map_nil, LState.run]
      rw [h1]; rfl
    · rename_i hc
      refine SkimsBy.fail ?_ h3 hx
      intro t r' ht
      refine h2 t r' ht ?_
      cases ht
      simp only [STok.hd, ne_eq, FTok.punct.injEq]
      simp at hc
      exact fun h => hc h.symm
  · rename_i hne
    refine SkimsBy.fail ?_ h3 hx
    intro t r ht
    refine h2 t r ht fun hc => ?_
    cases t <;> simp only [STok.hd, reduceCtorEq] at hc
    exact hne _ _ _ ht

theorem lamArgsS_skims : ∀ (n : Nat) {σ : LState} {scope : Option Nat} {ts : List STok} {u : Option Nat},
    (σ.mode = .lam0 ∨ σ.mode = .lam1 ∧ peekIdentS ts = true) →
    SkimsBy σ scope ts u (fun _ r τ => τ = { σ with mode := .lam1 } ∧ peekPunctS '/' r = true) (lamArgsS n scope ts u)
  | 0, _, _, _, _, _ => trivial
  | n + 1, σ, scope, ts, u, h => by
    simp only [lamArgsS]
    have h1 : ∀ r s, σ.step (.ident r s) = if plainName r s then some { σ with mode := .lam1 } else none := by
      intro r s
      obtain ⟨g, d, m⟩ := σ
      rcases h with h | ⟨h, -⟩ <;> simp only at h <;> subst h <;> rfl
    refine SkimsBy.bind (identS_skims (τ := { σ with mode := .lam1 }) h1 ?_ ?_ ?_) ?_
    · intro t r ht hne
      rcases h with h | ⟨h, h'⟩
      · simp only [LState.step, h]
        cases t <;> simp only [STok.hd]
        exact absurd rfl (hne _ _ _)
      · obtain ⟨a, b, s, r', h'⟩ := peekIdentS_iff.1 h'
        rw [h'] at ht
        cases ht
        exact absurd rfl (hne _ _ _)
    · rcases h with h | ⟨h, -⟩ <;> simp only [LState.step, h]
    · rcases h with h | ⟨h, -⟩ <;> rw [h] <;> simp
    · intro i r u' τ hτ
      subst hτ
      dsimp only
      split
      · rename_i hp; exact SkimsBy.pure ⟨rfl, hp⟩
      · rename_i hp
        split
        · rename_i hi
          refine SkimsBy.bind (lamArgsS_skims n (.inr ⟨rfl, hi⟩)) ?_
          intro l r u' τ hτ
          exact SkimsBy.pure hτ
        · rename_i hi
          refine SkimsBy.fail ?_ ⟨rfl, by simp⟩ ?_
          · intro t r' ht
            cases t <;> simp only [STok.hd, LState.step]
            · exact absurd (peekIdentS_iff.2 ⟨_, _, _, _, ht⟩) hi
            · rename_i c s
              split
              · rename_i hc; subst hc; exact absurd (peekPunctS_iff.2 ⟨_, _, ht⟩) hp
              · rfl
          · intro k hk
            simp only [List.mem_cons, List.not_mem_nil, or_false] at hk
            rcases hk with rfl | rfl
            · exact ⟨_, rfl, by simp [LState.step]⟩
            · exact ⟨.ident true "x", ⟨_, _, rfl⟩, by simp [LState.step, plainName]⟩

theorem letArgsS_skims : ∀ (n : Nat) {σ : LState} {scope : Option Nat} {ts : List STok} {u : Option Nat}, σ.mode = .letArgs →
    SkimsBy σ scope ts u (fun _ r τ => τ = σ ∧ peekPunctS '=' r = true) (letArgsS n scope ts u)
  | 0, _, _, _, _, _ => trivial
  | n + 1, σ, scope, ts, u, h => by
    simp only [letArgsS]
    split
    · rename_i hp; exact SkimsBy.pure ⟨rfl, hp⟩
    · rename_i hp
      split
      · rename_i hi
        refine SkimsBy.bind (identS_skims (τ := σ) (fun r s => by simp only [LState.step, h]) ?_ (by simp only [LState.step, h]) (by simp [h])) ?_
        · intro t r ht hne
          obtain ⟨a, b, s, r', h'⟩ := peekIdentS_iff.1 hi
          rw [h'] at ht
          cases ht
          exact absurd rfl (hne _ _ _)
        · intro i r u' τ hτ
          subst hτ
          refine SkimsBy.bind (letArgsS_skims n h) ?_
          intro l r u' τ hτ
          exact SkimsBy.pure hτ
      · rename_i hi
        refine SkimsBy.fail ?_ ⟨by simp only [LState.step, h], by simp [h]⟩ ?_
        · intro t r' ht
          cases t <;> simp only [STok.hd, LState.step, h]
          · exact absurd (peekIdentS_iff.2 ⟨_, _, _, _, ht⟩) hi
          · rename_i c s
            split
            · rename_i hc; subst hc; exact absurd (peekPunctS_iff.2 ⟨_, _, ht⟩) hp
            · rfl
        · intro k hk
          simp only [List.mem_cons, List.not_mem_nil, or_false] at hk
          rcases hk with rfl | rfl
          · exact ⟨_, rfl, by simp [LState.step, h]⟩
          · exact ⟨.ident true "x", ⟨_, _, rfl⟩, by simp [LState.step, plainName, h]⟩

/-! ## Expressions -/

structure ExprSkims (sp : List STok → Nat) (n : Nat) : Prop where
  term : ∀ {σ scope ts u}, TermAt σ ts → SkimsBy σ scope ts u (fun _ _ τ => τ = { σ with mode := .after }) (termS sp n scope ts u)
  terms : ∀ {σ scope ts u}, σ.mode = .after → SkimsBy σ scope ts u (fun _ r τ => EndCall σ r τ) (termsS sp n scope ts u)
  call : ∀ {σ scope ts u}, TermAt σ ts → SkimsBy σ scope ts u (fun _ r τ => EndCall σ r τ) (callS sp n scope ts u)
  cat : ∀ {σ scope ts u}, TermAt σ ts → SkimsBy σ scope ts u (fun _ r τ => EndCat σ r τ) (catItemsS sp n scope ts u)
  labelled : ∀ {σ scope ts u}, TermAt σ ts → SkimsBy σ scope ts u (fun _ r τ => EndBranch σ r τ) (labelledS sp n scope ts u)
  alt : ∀ {σ scope ts u}, TermAt σ ts → SkimsBy σ scope ts u (fun _ r τ => EndAlt σ r τ) (altItemsS sp n scope ts u)
  expr : ∀ {σ scope ts u}, σ.mode = .expr → SkimsBy σ scope ts u (fun _ r τ => EndAlt σ r τ) (exprS sp n scope ts u)

theorem group_skims {σ : LState} {scope : Option Nat} {o c : Nat} {l r : List STok} {u : Option Nat} {x : SR Expr}
    (hσ : σ.step (.opn true) = some ⟨σ.goal, σ.depth + 1, .expr⟩)
    (h : SkimsBy ⟨σ.goal, σ.depth + 1, .expr⟩ (some c) l u (fun _ r τ => EndAlt ⟨σ.goal, σ.depth + 1, .expr⟩ r τ) x) :
    SkimsBy σ scope (.group true o l c :: r) u (fun _ _ τ => τ = { σ with mode := .after })
      (x.bind fun (e, l', u) => (.ok (Term.parens e, r, dropBuffer l' u) : SR Term)) := by
  have hflat : STok.flatL (.group true o l c :: r) = (.opn true, o) :: (STok.flatL l ++ (.cls true, c) :: STok.flatL r) := by
    simp [STok.flatL, STok.flat]
  cases x with
  | panic => exact h
  | oof => trivial
  | err e =>
    refine .inl ?_
    rcases h with ⟨a, t, s, b, k, τ, h5, h6, h7⟩ | ⟨h5, k, τ, h6, h7, h8, h9⟩
    · exact ⟨(.opn true, o) :: a, t, s, b ++ (.cls true, c) :: STok.flatL r, _, τ, by rw [hflat, h5]; simp, .keep hσ h6, h7⟩
    · exact ⟨(.opn true, o) :: STok.flatL l, .cls true, c, STok.flatL r, _, τ, by rw [hflat]; simp, .keep hσ h6, h7, h7, h5, h9⟩
  | ok y =>
    obtain ⟨e, l', u'⟩ := y
    obtain ⟨pre, k, τ, rfl, hq, h1⟩ := h
    have hflat' : STok.flatL [.group true o (pre ++ l') c] = (.opn true, o) :: (STok.flatL pre ++ (STok.flatL l' ++ [(.cls true, c)])) := by
      simp [STok.flatL, STok.flat, STok.flatL_append]
    have hcl : τ.step (.cls true) = some { σ with mode := .after } := by rw [hq.close (by simp)]; rfl
    have hs : Skim τ (STok.flatL l' ++ [(.cls true, c)]) [.cls true] { σ with mode := .after } := by
      cases l' with
      | nil => exact .keep hcl (.nil _)
      | cons t l' => exact .skip (hq.step (.inl (by simp))) hcl (.nil _)
    exact ⟨[.group true o (pre ++ l') c], _, _, rfl, rfl, by rw [hflat']; exact .keep hσ (h1.append hs)⟩

theorem expr_skims (sp : List STok → Nat) : ∀ n, ExprSkims sp n
  | 0 => by
    constructor <;> (intros; simp only [termS, termsS, callS, catItemsS, labelledS, altItemsS, exprS]; trivial)
  | n + 1 => by
    have ih := expr_skims sp n
    constructor
    · intro σ scope ts u h
      simp only [termS]
      split
      · refine SkimsBy.one ?_ rfl
        have := h.step
        simp only [STok.hd] at this
        simp only [STok.flat, List.map_cons, List.map_nil, LState.run, this]; rfl
      · refine SkimsBy.one ?_ rfl
        have := h.step
        simp only [STok.hd] at this
        simp only [STok.flat, List.map_cons, List.map_nil, LState.run, this]; rfl
      · have := h.step
        simp only [STok.hd] at this
        refine SkimsBy.cons (τ := { σ with mode := .term }) ?_ ?_
        · simp only [STok.flat, List.map_cons, List.map_nil, LState.run, this]; rfl
        · refine SkimsBy.bind (ih.term (.inl rfl)) ?_
          intro t r u' τ hτ
          exact SkimsBy.pure hτ
      · have := h.step
        simp only [STok.hd] at this
        exact group_skims (by rw [this]; rfl) (ih.expr rfl)
      · refine SkimsBy.one ?_ rfl
        have := h.step
        simp only [STok.hd] at this
        simp only [STok.flat, List.map_cons, List.map_nil, LState.run, this]; rfl
      · rename_i h1 h2 h3 h4 h5
        have hmode : (σ.mode = .term ∨ σ.mode = .expr) ∧ ∀ t r, ts = t :: r → σ.termStep t.hd = none := by
          have hn : ∀ t r, ts = t :: r → σ.termStep t.hd = none := by
            intro t r ht
            cases t <;> simp only [STok.hd, LState.termStep]
            · exact absurd ht (h5 _ _ _ _)
            · split
              · rename_i hc; subst hc; exact absurd ht (h3 _ _)
              · rfl
            · exact absurd ht (h2 _ _ _)
            · split
              · rename_i hc; subst hc; exact absurd ht (h4 _ _ _ _)
              · rfl
          refine ⟨?_, hn⟩
          rcases h with h | ⟨h, -⟩ | ⟨-, h'⟩
          · exact .inl h
          · exact .inr h
          · cases ts with
            | nil => cases h'
            | cons t r => exact absurd (hn t r rfl) ((peekTermS_iff σ).1 h')
        refine SkimsBy.fail ?_ ?_ (TermAt.fits hmode.1)
        · intro t r ht
          subst ht
          rw [h.step]; exact hmode.2 t r rfl
        · rcases hmode.1 with hm | hm <;> simp [LState.step, hm, LState.termStep]
    · intro σ scope ts u h
      simp only [termsS]
      split
      · rename_i hp
        refine SkimsBy.bind (ih.term (.inr (.inr ⟨h, hp⟩))) ?_
        intro t r u' τ hτ
        refine SkimsBy.bind (ih.terms (by rw [hτ])) ?_
        intro l r u' τ' hτ'
        refine SkimsBy.pure ?_
        rw [hτ] at hτ'
        exact hτ'
      · rename_i hp
        refine SkimsBy.pure ⟨?_, by simpa using hp⟩
        rw [← h]
    · intro σ scope ts u h
      simp only [callS]
      refine SkimsBy.bind (ih.term h) ?_
      intro t r u' τ hτ
      refine SkimsBy.bind (ih.terms (by rw [hτ])) ?_
      intro l r u' τ' hτ'
      refine SkimsBy.pure ?_
      rw [hτ] at hτ'
      exact hτ'
    · intro σ scope ts u h
      simp only [catItemsS]
      refine SkimsBy.bind (ih.call h) ?_
      intro x r u' τ hτ
      dsimp only
      split
      · refine SkimsBy.cons (τ := { σ with mode := .term }) ?_ ?_
        · rw [hτ.1]; rfl
        · refine SkimsBy.bind (ih.cat (.inl rfl)) ?_
          intro l r u' τ hτ
          exact SkimsBy.pure hτ
      · rename_i hne
        refine SkimsBy.pure ⟨hτ, ?_⟩
        cases hp : peekPunctS '.' r with
        | false => rfl
        | true => obtain ⟨s, r', hr⟩ := peekPunctS_iff.1 hp; exact absurd hr (hne _ _)
    · intro σ scope ts u h
      simp only [labelledS]
      refine SkimsBy.bind (ih.cat h) ?_
      intro l r u' τ hτ
      dsimp only
      split
      · refine SkimsBy.cons (τ := { σ with mode := .label }) ?_ ?_
        · rw [hτ.1.1]; rfl
        · refine SkimsBy.bind (anyIdentS_skims (τ := { σ with mode := .afterLabel }) (fun _ _ => rfl) ?_ (by simp)) ?_
          · intro t ht
            cases t <;> simp only [LState.step]
            exact absurd rfl (ht _ _)
          · intro i r u' τ hτ
            exact SkimsBy.pure (.inr hτ)
      · rename_i hne
        refine SkimsBy.pure (.inl ⟨hτ, ?_⟩)
        cases hp : peekPunctS ':' r with
        | false => rfl
        | true => obtain ⟨s, r', hr⟩ := peekPunctS_iff.1 hp; exact absurd hr (hne _ _)
    · intro σ scope ts u h
      simp only [altItemsS]
      refine SkimsBy.bind (ih.labelled h) ?_
      intro x r u' τ hτ
      dsimp only
      split
      · refine SkimsBy.cons (τ := { σ with mode := .term }) ?_ ?_
        · rcases hτ with ⟨⟨⟨rfl, -⟩, -⟩, -⟩ | rfl
          · simp [STok.flat, LState.run, LState.step, LState.termStep, LState.closeStep]
          · simp [STok.flat, LState.run, LState.step, LState.closeStep]
        · refine SkimsBy.bind (ih.alt (.inl rfl)) ?_
          intro l r u' τ hτ
          exact SkimsBy.pure hτ
      · rename_i hne
        refine SkimsBy.pure ⟨hτ, ?_⟩
        cases hp : peekPunctS '|' r with
        | false => rfl
        | true => obtain ⟨s, r', hr⟩ := peekPunctS_iff.1 hp; exact absurd hr (hne _ _)
    · intro σ scope ts u h
      simp only [exprS]
      split
      · rename_i s r
        refine SkimsBy.cons (τ := { σ with mode := .lam0 }) ?_ ?_
        · simp [STok.flat, LState.run, LState.step, h]
        · refine SkimsBy.bind (lamArgsS_skims n (.inl rfl)) ?_
          intro args r u' τ hτ
          obtain ⟨hτ, hp⟩ := hτ
          obtain ⟨s', r', hr⟩ := peekPunctS_iff.1 hp
          subst hτ
          refine SkimsBy.bind (punctS_skims (τ := { σ with mode := .term }) (by simp [LState.step]) ?_ ?_) ?_
          · intro t r' ht hne
            rw [hr] at ht
            cases ht
            exact absurd rfl hne
          · exact ⟨rfl, by intro h0; rw [hr] at h0; cases h0⟩
          · intro _ r u' τ hτ
            subst hτ
            refine SkimsBy.bind (ih.alt (.inl rfl)) ?_
            intro l r u' τ hτ
            exact SkimsBy.pure hτ
      · rename_i hne
        refine SkimsBy.bind (ih.alt (.inr (.inl ⟨h, ?_⟩))) ?_
        · cases hp : peekPunctS '/' ts with
          | false => rfl
          | true => obtain ⟨s, r', hr⟩ := peekPunctS_iff.1 hp; exact absurd hr (hne _ _)
        · intro l r u' τ hτ
          exact SkimsBy.pure hτ

theorem stmtS_skims (sp : List STok → Nat) : ∀ (n : Nat) {σ : LState} {scope : Option Nat} {ts : List STok} {u : Option Nat}, σ.mode = .stmt → σ.depth = 0 →
    SkimsBy σ scope ts u (fun _ _ τ => τ = ⟨true, 0, .done⟩) (stmtS sp n scope ts u)
  | 0, _, _, _, _, _, _ => trivial
  | n + 1, σ, scope, ts, u, h, hd0 => by
    have hexpr : ∀ {σ : LState} {r : List STok} {u' : Option Nat}, σ.mode = .expr → σ.depth = 0 →
        ∀ {β : Type} {Q : β → List STok → LState → Prop} {f : Expr × List STok × Option Nat → Nat × List STok × Option Nat → SR β},
          (∀ y s r' u', SkimsBy { σ with mode := if σ.goal then .done else .stmt } scope r' u' Q (f y (s, r', u'))) →
          SkimsBy σ scope r u' Q ((exprS sp n scope r u').bind fun y => (punctS ';' scope y.2.1 y.2.2).bind (f y)) := by
      intro σ r u' hm hd β Q f hf
      refine SkimsBy.bind ((expr_skims sp n).expr hm) ?_
      intro e r u' τ hτ
      obtain ⟨h1, h2, h3⟩ := hτ.semi hd
      refine SkimsBy.bind (punctS_skims h1 ?_ ⟨h2, fun _ => h3⟩) ?_
      · intro t r' ht hne
        subst ht
        exact hτ.step (.inr hne)
      · intro s r' u' τ hτ
        subst hτ
        exact hf _ _ _ _
    simp only [stmtS]
    split
    · rename_i s r
      refine SkimsBy.cons (τ := ⟨false, 0, .letName⟩) ?_ ?_
      · simp [STok.flat, LState.run, LState.step, h, hd0]
      refine SkimsBy.bind (anyIdentS_skims (τ := ⟨false, 0, .letArgs⟩) (fun _ _ => rfl) ?_ (by simp)) ?_
      · intro t ht
        cases t <;> simp only [LState.step]
        exact absurd rfl (ht _ _)
      intro x r u' τ hτ
      subst hτ
      refine SkimsBy.bind (letArgsS_skims n rfl) ?_
      intro args r u' τ ⟨hτ, hp⟩
      subst hτ
      obtain ⟨s', r', hr⟩ := peekPunctS_iff.1 hp
      refine SkimsBy.bind (punctS_skims (τ := ⟨false, 0, .expr⟩) (by simp [LState.step]) ?_ ?_) ?_
      · intro t r' ht hne
        rw [hr] at ht
        cases ht
        exact absurd rfl hne
      · exact ⟨rfl, by intro h0; rw [hr] at h0; cases h0⟩
      intro _ r u' τ hτ
      subst hτ
      refine hexpr (σ := ⟨false, 0, .expr⟩) rfl rfl ?_
      intro y s r' u'
      refine SkimsBy.bind (stmtS_skims sp n rfl rfl) ?_
      intro next r u' τ hτ
      exact SkimsBy.pure hτ
    · rename_i s r
      refine SkimsBy.cons (τ := ⟨true, 0, .expr⟩) ?_ ?_
      · simp [STok.flat, LState.run, LState.step, h, hd0]
      refine hexpr (σ := ⟨true, 0, .expr⟩) rfl rfl ?_
      intro y s r' u'
      exact SkimsBy.pure rfl
    · rename_i h1 h2
      refine SkimsBy.fail ?_ ⟨by simp only [LState.step, h], by simp [h]⟩ ?_
      · intro t r ht
        cases t <;> simp only [STok.hd, LState.step, h]
        rename_i raw sym s
        split
        · rename_i hc; obtain ⟨rfl, rfl⟩ := hc; exact absurd ht (h1 _ _)
        · split
          · rename_i hc; obtain ⟨rfl, rfl⟩ := hc; exact absurd ht (h2 _ _)
          · rfl
      · intro k hk
        simp only [List.mem_cons, List.not_mem_nil, or_false] at hk
        rcases hk with rfl | rfl
        · exact ⟨_, rfl, by simp [LState.step, h]⟩
        · exact ⟨_, rfl, by simp [LState.step, h]⟩

end

end Chomp
