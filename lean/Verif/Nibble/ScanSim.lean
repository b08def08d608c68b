import Verif.Nibble.Scan

/-! # The parser follows the automaton of `Verif/Nibble/Scan.lean` -/

namespace Chomp

section
variable [Reserved]

/-- The first token that cannot follow is at `s`, and a closing parenthesis could have been there. -/
def BadAt (σ : LState) (w : List (FTok × Nat)) (s : Nat) : Prop :=
  ∃ a t b τ, w = a ++ (t, s) :: b ∧ σ.run (a.map (·.1)) = some τ ∧ τ.step t = none ∧ τ.step (.cls true) ≠ none

/-- All that is listed can follow. -/
def AllFit (σ : LState) (l : List Expect) : Prop := ∀ k ∈ l, ∃ t, k.Fits t ∧ σ.step t ≠ none

/-- The error is at the first token that cannot follow. -/
def ErrAt (σ : LState) (scope : Option Nat) (ts : List STok) (e : SynErr) : Prop :=
  (∃ a t s b τ, STok.flatL ts = a ++ (t, s) :: b ∧ σ.run (a.map (·.1)) = some τ ∧ τ.step t = none ∧ e.loc = some s ∧ AllFit τ e.expected) ∨
  (e.loc = scope ∧ ∃ τ, σ.run ((STok.flatL ts).map (·.1)) = some τ ∧ τ.step (.cls true) = none ∧ τ.mode ≠ .done ∧ AllFit τ e.expected)

/-- What the result of a parser says about the automaton. -/
def ParsesBy {α : Type} (σ : LState) (scope : Option Nat) (ts : List STok) (u : Option Nat) (Q : α → List STok → LState → Prop) : SR α → Prop
  | .ok (x, r, u') => ∃ pre τ, ts = pre ++ r ∧ Q x r τ ∧ (u ≠ none → u' = u) ∧
      (u = none → (u' = none ∧ σ.run ((STok.flatL pre).map (·.1)) = some τ) ∨ ∃ s, u' = some s ∧ BadAt σ (STok.flatL pre) s)
  | .err e => (u ≠ none → e.left = u) ∧
      (u = none → (e.left = none ∧ ErrAt σ scope ts e) ∨ ∃ s, e.left = some s ∧ BadAt σ (STok.flatL ts) s)
  | .panic => False
  | .oof => True

theorem BadAt.append {σ : LState} {w : List (FTok × Nat)} {s : Nat} (h : BadAt σ w s) (w' : List (FTok × Nat)) : BadAt σ (w ++ w') s := by
  obtain ⟨a, t, b, τ, rfl, h1, h2⟩ := h
  exact ⟨a, t, b ++ w', τ, by simp, h1, h2⟩

theorem BadAt.after {σ τ : LState} {a w : List (FTok × Nat)} {s : Nat} (h : BadAt τ w s) (ha : σ.run (a.map (·.1)) = some τ) :
    BadAt σ (a ++ w) s := by
  obtain ⟨a', t, b, τ', rfl, h1, h2⟩ := h
  exact ⟨a ++ a', t, b, τ', by simp, by rw [List.map_append, LState.run_append, ha]; exact h1, h2⟩

theorem ErrAt.after {σ τ : LState} {scope : Option Nat} {pre r : List STok} {e : SynErr} (h : ErrAt τ scope r e)
    (ha : σ.run ((STok.flatL pre).map (·.1)) = some τ) : ErrAt σ scope (pre ++ r) e := by
  rcases h with ⟨a, t, s, b, τ', h1, h2, h3⟩ | ⟨h0, τ', h1, h2⟩
  · refine .inl ⟨STok.flatL pre ++ a, t, s, b, τ', by rw [STok.flatL_append, h1]; simp, ?_, h3⟩
    rw [List.map_append, LState.run_append, ha]; exact h2
  · refine .inr ⟨h0, τ', ?_, h2⟩
    rw [STok.flatL_append, List.map_append, LState.run_append, ha]; exact h1

theorem ParsesBy.bind {α β : Type} {σ : LState} {scope : Option Nat} {ts : List STok} {u : Option Nat} {Q : α → List STok → LState → Prop}
    {Q' : β → List STok → LState → Prop} {x : SR α} {f : α × List STok × Option Nat → SR β} (h : ParsesBy σ scope ts u Q x)
    (hf : ∀ a r u' τ, Q a r τ → ParsesBy τ scope r u' Q' (f (a, r, u'))) : ParsesBy σ scope ts u Q' (x.bind f) := by
  cases x with
  | panic => exact h
  | oof => exact h
  | err e => exact h
  | ok y =>
    obtain ⟨a, r, u'⟩ := y
    obtain ⟨pre, τ, rfl, hq, h1, h2⟩ := h
    have h3 := hf a r u' τ hq
    show ParsesBy σ scope (pre ++ r) u Q' (f (a, r, u'))
    cases hx : f (a, r, u') with
    | panic => rw [hx] at h3; exact h3
    | oof => trivial
    | err e =>
      rw [hx] at h3
      obtain ⟨h3, h4⟩ := h3
      refine ⟨fun hu => ?_, fun hu => ?_⟩
      · have := h1 hu; subst this; exact h3 hu
      · rcases h2 hu with ⟨h5, h6⟩ | ⟨s, h5, h6⟩
        · rcases h4 h5 with ⟨h7, h8⟩ | ⟨s, h7, h8⟩
          · exact .inl ⟨h7, h8.after h6⟩
          · exact .inr ⟨s, h7, by rw [STok.flatL_append]; exact h8.after h6⟩
        · refine .inr ⟨s, ?_, by rw [STok.flatL_append]; exact h6.append _⟩
          rw [h3 (by rw [h5]; simp), h5]
    | ok z =>
      rw [hx] at h3
      obtain ⟨b, r', u''⟩ := z
      obtain ⟨pre', τ', rfl, hq', h3, h4⟩ := h3
      refine ⟨pre ++ pre', τ', by simp, hq', fun hu => ?_, fun hu => ?_⟩
      · have := h1 hu; subst this; exact h3 hu
      · rcases h2 hu with ⟨h5, h6⟩ | ⟨s, h5, h6⟩
        · rcases h4 h5 with ⟨h7, h8⟩ | ⟨s, h7, h8⟩
          · refine .inl ⟨h7, ?_⟩
            rw [STok.flatL_append, List.map_append, LState.run_append, h6]; exact h8
          · exact .inr ⟨s, h7, by rw [STok.flatL_append]; exact h8.after h6⟩
        · refine .inr ⟨s, ?_, by rw [STok.flatL_append]; exact h6.append _⟩
          rw [h3 (by rw [h5]; simp), h5]

/-- Nothing is consumed. -/
theorem ParsesBy.pure {α : Type} {σ : LState} {scope : Option Nat} {ts : List STok} {u : Option Nat} {Q : α → List STok → LState → Prop}
    {x : α} (h : Q x ts σ) : ParsesBy σ scope ts u Q (.ok (x, ts, u)) :=
  ⟨[], σ, rfl, h, fun _ => rfl, fun hu => .inl ⟨hu, rfl⟩⟩

/-- One token is consumed. -/
theorem ParsesBy.one {α : Type} {σ τ : LState} {scope : Option Nat} {t : STok} {r : List STok} {u : Option Nat} {Q : α → List STok → LState → Prop}
    {x : α} (hs : σ.run (t.flat.map (·.1)) = some τ) (h : Q x r τ) : ParsesBy σ scope (t :: r) u Q (.ok (x, r, u)) :=
  ⟨[t], τ, rfl, h, fun _ => rfl, fun hu => .inl ⟨hu, by rw [STok.flatL, STok.flatL, List.append_nil]; exact hs⟩⟩

/-- One token is consumed, and more follows. -/
theorem ParsesBy.cons {α : Type} {σ τ : LState} {scope : Option Nat} {t : STok} {r : List STok} {u : Option Nat} {Q : α → List STok → LState → Prop}
    {x : SR α} (hs : σ.run (t.flat.map (·.1)) = some τ) (h : ParsesBy τ scope r u Q x) : ParsesBy σ scope (t :: r) u Q x := by
  classical
  have := ParsesBy.bind (x := (.ok ((), r, u) : SR Unit)) (Q := fun _ r' τ' => r' = r ∧ τ' = τ) (f := fun y => if y.2 = (r, u) then x else .oof)
    (ParsesBy.one (scope := scope) (u := u) hs ⟨rfl, rfl⟩) (Q' := Q) fun a r' u' τ' ⟨h1, h2⟩ => by
      subst h1 h2
      by_cases hu : u' = u
      · subst hu; rw [if_pos rfl]; exact h
      · rw [if_neg (by simpa using hu)]; trivial
  simpa [Out.bind] using this

/-- An error at the next token. -/
theorem ParsesBy.fail {α : Type} {σ : LState} {scope : Option Nat} {ts : List STok} {u : Option Nat} {Q : α → List STok → LState → Prop}
    {l : List Expect} (h1 : ∀ t r, ts = t :: r → σ.step t.hd = none) (h2 : ts = [] → σ.step (.cls true) = none ∧ σ.mode ≠ .done)
    (h3 : AllFit σ l) : ParsesBy σ scope ts u Q (synErr scope ts u l) := by
  refine ⟨fun _ => rfl, fun hu => .inl ⟨hu, ?_⟩⟩
  cases ts with
  | nil => exact .inr ⟨rfl, σ, rfl, (h2 rfl).1, (h2 rfl).2, h3⟩
  | cons t r =>
    obtain ⟨b, hb⟩ := t.flat_hd
    exact .inl ⟨[], t.hd, t.span, b ++ STok.flatL r, σ, by rw [STok.flatL, hb]; rfl, rfl, h1 t r rfl, rfl, h3⟩

theorem ParsesBy.weaken {α : Type} {σ : LState} {scope : Option Nat} {ts : List STok} {u : Option Nat} {Q Q' : α → List STok → LState → Prop}
    {x : SR α} (h : ParsesBy σ scope ts u Q x) (hq : ∀ x r τ, Q x r τ → Q' x r τ) : ParsesBy σ scope ts u Q' x := by
  match x, h with
  | .ok (x, r, u'), ⟨pre, τ, h1, h2, h3⟩ => exact ⟨pre, τ, h1, hq _ _ _ h2, h3⟩
  | .err e, h => exact h
  | .oof, h => exact h

/-! ## Small parsers -/

theorem plainName_raw (s : String) : plainName true s = true := rfl

theorem identS_follows {σ τ : LState} {scope : Option Nat} {ts : List STok} {u : Option Nat}
    (h1 : ∀ r s, σ.step (.ident r s) = if plainName r s then some τ else none)
    (h2 : ∀ t r, ts = t :: r → (∀ a b c, t ≠ .ident a b c) → σ.step t.hd = none) (h3 : σ.step (.cls true) = none) (h4 : σ.mode ≠ .done) :
    ParsesBy σ scope ts u (fun _ _ τ' => τ' = τ) (identS scope ts u) := by
  have hx : AllFit σ [.ident] := by
    intro k hk
    simp only [List.mem_singleton] at hk
    subst hk
    refine ⟨.ident true "x", ⟨_, _, rfl⟩, ?_⟩
    rw [h1]; simp [plainName]
  unfold identS
  split
  · rename_i raw sym s r
    split
    · rename_i hp
      refine ParsesBy.one ?_ rfl
      simp only [STok.flat, List.map_cons, List.map_nil, LState.run]
      rw [h1, show plainName raw sym = true from hp]; rfl
    · rename_i hp
      refine ParsesBy.fail ?_ (by simp) hx
      intro t r' ht
      cases ht
      simp only [STok.hd]
      rw [h1]; exact if_neg hp
  · rename_i hne
    refine ParsesBy.fail ?_ (fun _ => ⟨h3, h4⟩) hx
    intro t r ht
    exact h2 t r ht fun a b c hc => hne a b c r (by rw [ht, hc])

theorem anyIdentS_follows {σ τ : LState} {scope : Option Nat} {ts : List STok} {u : Option Nat}
    (h1 : ∀ r s, σ.step (.ident r s) = some τ)
    (h2 : ∀ t, (∀ a b, t ≠ .ident a b) → σ.step t = none) (h4 : σ.mode ≠ .done) :
    ParsesBy σ scope ts u (fun _ _ τ' => τ' = τ) (anyIdentS scope ts u) := by
  unfold anyIdentS
  split
  · refine ParsesBy.one ?_ rfl
    simp only [STok.flat, List.map_cons, List.map_nil, LState.run]
    rw [h1]; rfl
  · rename_i hne
    refine ParsesBy.fail ?_ (fun _ => ⟨h2 _ (by simp), h4⟩) ?_
    · intro t r ht
      refine h2 _ fun a b hc => ?_
      cases t <;> simp only [STok.hd, reduceCtorEq] at hc
      exact hne _ _ _ _ ht
    · intro k hk
      simp only [List.mem_singleton] at hk
      subst hk
      exact ⟨.ident true "x", ⟨_, _, rfl⟩, by rw [h1]; simp⟩

theorem peekPunctS_iff {c : Char} {ts : List STok} : peekPunctS c ts = true ↔ ∃ s r, ts = .punct c s :: r := by
  unfold peekPunctS
  split
  · rename_i d s r
    constructor
    · intro h; simp at h; exact ⟨s, r, by rw [h]⟩
    · rintro ⟨s', r', h⟩; cases h; simp
  · rename_i hne
    constructor
    · intro h; cases h
    · rintro ⟨s, r, rfl⟩; exact absurd rfl (hne _ _ _)

theorem punctS_follows {c : Char} {σ τ : LState} {scope : Option Nat} {ts : List STok} {u : Option Nat}
    (h1 : σ.step (.punct c) = some τ) (h2 : ∀ t r, ts = t :: r → t.hd ≠ .punct c → σ.step t.hd = none)
    (h3 : ts = [] → σ.step (.cls true) = none ∧ σ.mode ≠ .done) : ParsesBy σ scope ts u (fun _ _ τ' => τ' = τ) (punctS c scope ts u) := by
  have hx : AllFit σ [.punct c] := by
    intro k hk
    simp only [List.mem_singleton] at hk
    subst hk
    exact ⟨.punct c, rfl, by rw [h1]; simp⟩
  unfold punctS
  split
  · rename_i d s r
    split
    · rename_i hc
      simp at hc
      subst hc
      refine ParsesBy.one ?_ rfl
      simp only [STok.flat, List.map_cons, List.map_nil, LState.run]
      rw [h1]; rfl
    · rename_i hc
      refine ParsesBy.fail ?_ (by simp) hx
      intro t r' ht
      refine h2 t r' ht ?_
      cases ht
      simp only [STok.hd, ne_eq, FTok.punct.injEq]
      simp at hc
      exact fun h => hc h.symm
  · rename_i hne
    refine ParsesBy.fail ?_ h3 hx
    intro t r ht
    refine h2 t r ht fun hc => ?_
    cases t <;> simp only [STok.hd, reduceCtorEq] at hc
    exact hne _ _ _ ht

theorem peekIdentS_iff {ts : List STok} : peekIdentS ts = true ↔ ∃ a b s r, ts = .ident a b s :: r := by
  unfold peekIdentS
  split
  · exact ⟨fun _ => ⟨_, _, _, _, rfl⟩, fun _ => rfl⟩
  · rename_i hne
    constructor
    · intro h; cases h
    · rintro ⟨a, b, s, r, rfl⟩; exact absurd rfl (hne _ _ _ _)

theorem lamArgsS_follows : ∀ (n : Nat) {σ : LState} {scope : Option Nat} {ts : List STok} {u : Option Nat},
    (σ.mode = .lam0 ∨ σ.mode = .lam1 ∧ peekIdentS ts = true) →
    ParsesBy σ scope ts u (fun _ r τ => τ = { σ with mode := .lam1 } ∧ peekPunctS '/' r = true) (lamArgsS n scope ts u)
  | 0, _, _, _, _, _ => trivial
  | n + 1, σ, scope, ts, u, h => by
    simp only [lamArgsS]
    have h1 : ∀ r s, σ.step (.ident r s) = if plainName r s then some { σ with mode := .lam1 } else none := by
      intro r s
      obtain ⟨g, d, m⟩ := σ
      rcases h with h | ⟨h, -⟩ <;> simp only at h <;> subst h <;> rfl
    refine ParsesBy.bind (identS_follows (τ := { σ with mode := .lam1 }) h1 ?_ ?_ ?_) ?_
    · intro t r ht hne
      rcases h with h | ⟨h, h'⟩
      · simp only [LState.step, h]
        cases t <;> simp only [STok.hd]
        exact absurd rfl (hne _ _ _)
      · obtain ⟨a, b, s, r', h'⟩ := peekIdentS_iff.1 h'
        rw [h'] at ht
        cases ht
        exact absurd rfl (hne _ _ _)
    · rcases h with h | ⟨h, -⟩ <;> simp only [LState.step, h]
    · rcases h with h | ⟨h, -⟩ <;> rw [h] <;> simp
    · intro i r u' τ hτ
      subst hτ
      dsimp only
      split
      · rename_i hp; exact ParsesBy.pure ⟨rfl, hp⟩
      · rename_i hp
        split
        · rename_i hi
          refine ParsesBy.bind (lamArgsS_follows n (.inr ⟨rfl, hi⟩)) ?_
          intro l r u' τ hτ
          exact ParsesBy.pure hτ
        · rename_i hi
          refine ParsesBy.fail ?_ (fun _ => ⟨rfl, by simp⟩) ?_
          · intro t r' ht
            cases t <;> simp only [STok.hd, LState.step]
            · exact absurd (peekIdentS_iff.2 ⟨_, _, _, _, ht⟩) hi
            · rename_i c s
              split
              · rename_i hc; subst hc; exact absurd (peekPunctS_iff.2 ⟨_, _, ht⟩) hp
              · rfl
          · intro k hk
            simp only [List.mem_cons, List.not_mem_nil, or_false] at hk
            rcases hk with rfl | rfl
            · exact ⟨_, rfl, by simp [LState.step]⟩
            · exact ⟨.ident true "x", ⟨_, _, rfl⟩, by simp [LState.step, plainName]⟩

theorem letArgsS_follows : ∀ (n : Nat) {σ : LState} {scope : Option Nat} {ts : List STok} {u : Option Nat}, σ.mode = .letArgs →
    ParsesBy σ scope ts u (fun _ r τ => τ = σ ∧ peekPunctS '=' r = true) (letArgsS n scope ts u)
  | 0, _, _, _, _, _ => trivial
  | n + 1, σ, scope, ts, u, h => by
    simp only [letArgsS]
    split
    · rename_i hp; exact ParsesBy.pure ⟨rfl, hp⟩
    · rename_i hp
      split
      · rename_i hi
        refine ParsesBy.bind (identS_follows (τ := σ) (fun r s => by simp only [LState.step, h]) ?_ (by simp only [LState.step, h]) (by simp [h])) ?_
        · intro t r ht hne
          obtain ⟨a, b, s, r', h'⟩ := peekIdentS_iff.1 hi
          rw [h'] at ht
          cases ht
          exact absurd rfl (hne _ _ _)
        · intro i r u' τ hτ
          subst hτ
          refine ParsesBy.bind (letArgsS_follows n h) ?_
          intro l r u' τ hτ
          exact ParsesBy.pure hτ
      · rename_i hi
        refine ParsesBy.fail ?_ (fun _ => ⟨by simp only [LState.step, h], by simp [h]⟩) ?_
        · intro t r' ht
          cases t <;> simp only [STok.hd, LState.step, h]
          · exact absurd (peekIdentS_iff.2 ⟨_, _, _, _, ht⟩) hi
          · rename_i c s
            split
            · rename_i hc; subst hc; exact absurd (peekPunctS_iff.2 ⟨_, _, ht⟩) hp
            · rfl
        · intro k hk
          simp only [List.mem_cons, List.not_mem_nil, or_false] at hk
          rcases hk with rfl | rfl
          · exact ⟨_, rfl, by simp [LState.step, h]⟩
          · exact ⟨.ident true "x", ⟨_, _, rfl⟩, by simp [LState.step, plainName, h]⟩

/-! ## Expressions -/

/-- A term is what comes next. -/
def TermAt (σ : LState) (ts : List STok) : Prop :=
  σ.mode = .term ∨ (σ.mode = .expr ∧ peekPunctS '/' ts = false) ∨ (σ.mode = .after ∧ peekTermS ts = true)

theorem peekTermS_iff {t : STok} {r : List STok} (σ : LState) : peekTermS (t :: r) = true ↔ σ.termStep t.hd ≠ none := by
  cases t with
  | ident => simp [peekTermS, LState.termStep, STok.hd]
  | punct => simp [peekTermS, LState.termStep, STok.hd]
  | str => simp [peekTermS, LState.termStep, STok.hd]
  | other => simp [peekTermS, LState.termStep, STok.hd]
  | group => simp [peekTermS, LState.termStep, STok.hd]

theorem TermAt.step {σ : LState} {t : STok} {r : List STok} (h : TermAt σ (t :: r)) : σ.step t.hd = σ.termStep t.hd := by
  rcases h with h | ⟨h, h'⟩ | ⟨h, h'⟩
  · simp only [LState.step, h]
  · simp only [LState.step, h]
    split
    · rename_i ht
      cases t <;> simp only [STok.hd, reduceCtorEq, FTok.punct.injEq] at ht
      subst ht
      simp [peekPunctS] at h'
    · rfl
  · have h1 := (peekTermS_iff σ).1 h'
    simp only [LState.step, h]
    split
    · rename_i ht; rw [ht] at h1; simp [LState.termStep] at h1
    · split
      · rename_i ht; rw [ht] at h1; simp [LState.termStep] at h1
      · split
        · rename_i h2; exact h2.symm
        · rename_i h2; exact absurd h2 h1

/-- What follows a call, a concatenation, a branch, an alternation. -/
def EndCall (σ : LState) (r : List STok) (τ : LState) : Prop := τ = { σ with mode := .after } ∧ peekTermS r = false
def EndCat (σ : LState) (r : List STok) (τ : LState) : Prop := EndCall σ r τ ∧ peekPunctS '.' r = false
def EndBranch (σ : LState) (r : List STok) (τ : LState) : Prop := (EndCat σ r τ ∧ peekPunctS ':' r = false) ∨ τ = { σ with mode := .afterLabel }
def EndAlt (σ : LState) (r : List STok) (τ : LState) : Prop := EndBranch σ r τ ∧ peekPunctS '|' r = false

theorem EndAlt.step {σ τ : LState} {t : STok} {r : List STok} (h : EndAlt σ (t :: r) τ) (hd : σ.depth ≠ 0 ∨ t.hd ≠ .punct ';') :
    τ.step t.hd = none := by
  have hc : ∀ m, LState.closeStep { σ with mode := m } t.hd = none := by
    intro m
    have h2 := h.2
    cases t <;> simp only [STok.hd, LState.closeStep]
    rename_i c s
    split
    · rename_i hc; subst hc; simp [peekPunctS] at h2
    · split
      · rename_i hc
        subst hc
        simp [STok.hd] at hd
        rw [if_neg hd]
      · rfl
  rcases h.1 with ⟨⟨⟨rfl, h1⟩, h2⟩, h3⟩ | rfl
  · simp only [LState.step]
    split
    · rename_i ht
      cases t <;> simp only [STok.hd, reduceCtorEq, FTok.punct.injEq] at ht
      subst ht; simp [peekPunctS] at h2
    · split
      · rename_i ht
        cases t <;> simp only [STok.hd, reduceCtorEq, FTok.punct.injEq] at ht
        subst ht; simp [peekPunctS] at h3
      · split
        · rename_i h4
          have := (peekTermS_iff (t := t) (r := r) { σ with mode := LMode.after }).2 (by rw [h4]; simp)
          rw [h1] at this; cases this
        · exact hc _
  · simp only [LState.step]
    exact hc _

theorem EndAlt.close {σ τ : LState} {r : List STok} (h : EndAlt σ r τ) (hd : σ.depth ≠ 0) :
    τ.step (.cls true) = some ⟨σ.goal, σ.depth - 1, .after⟩ := by
  rcases h.1 with ⟨⟨⟨rfl, -⟩, -⟩, -⟩ | rfl <;> simp [LState.step, LState.termStep, LState.closeStep, hd]

theorem EndAlt.semi {σ τ : LState} {r : List STok} (h : EndAlt σ r τ) (hd : σ.depth = 0) :
    τ.step (.punct ';') = some { σ with mode := if σ.goal then .done else .stmt } ∧ τ.step (.cls true) = none ∧ τ.mode ≠ .done := by
  rcases h.1 with ⟨⟨⟨rfl, -⟩, -⟩, -⟩ | rfl <;> simp [LState.step, LState.termStep, LState.closeStep, hd]

structure ExprFollows (sp : List STok → Nat) (n : Nat) : Prop where
  term : ∀ {σ scope ts u}, TermAt σ ts → ParsesBy σ scope ts u (fun _ _ τ => τ = { σ with mode := .after }) (termS sp n scope ts u)
  terms : ∀ {σ scope ts u}, σ.mode = .after → ParsesBy σ scope ts u (fun _ r τ => EndCall σ r τ) (termsS sp n scope ts u)
  call : ∀ {σ scope ts u}, TermAt σ ts → ParsesBy σ scope ts u (fun _ r τ => EndCall σ r τ) (callS sp n scope ts u)
  cat : ∀ {σ scope ts u}, TermAt σ ts → ParsesBy σ scope ts u (fun _ r τ => EndCat σ r τ) (catItemsS sp n scope ts u)
  labelled : ∀ {σ scope ts u}, TermAt σ ts → ParsesBy σ scope ts u (fun _ r τ => EndBranch σ r τ) (labelledS sp n scope ts u)
  alt : ∀ {σ scope ts u}, TermAt σ ts → ParsesBy σ scope ts u (fun _ r τ => EndAlt σ r τ) (altItemsS sp n scope ts u)
  expr : ∀ {σ scope ts u}, σ.mode = .expr → ParsesBy σ scope ts u (fun _ r τ => EndAlt σ r τ) (exprS sp n scope ts u)

theorem group_follows {σ : LState} {scope : Option Nat} {o c : Nat} {l r : List STok} {u : Option Nat} {x : SR Expr}
    (hσ : σ.step (.opn true) = some ⟨σ.goal, σ.depth + 1, .expr⟩)
    (h : ParsesBy ⟨σ.goal, σ.depth + 1, .expr⟩ (some c) l u (fun _ r τ => EndAlt ⟨σ.goal, σ.depth + 1, .expr⟩ r τ) x) :
    ParsesBy σ scope (.group true o l c :: r) u (fun _ _ τ => τ = { σ with mode := .after })
      (x.bind fun (e, l', u) => (.ok (Term.parens e, r, dropBuffer l' u) : SR Term)) := by
  have hrun : ∀ w, σ.run (.opn true :: w) = LState.run ⟨σ.goal, σ.depth + 1, .expr⟩ w := by
    intro w; simp only [LState.run]; rw [hσ]; rfl
  have hflat : STok.flatL (.group true o l c :: r) = (.opn true, o) :: (STok.flatL l ++ (.cls true, c) :: STok.flatL r) := by
    simp [STok.flatL, STok.flat]
  have hbad : ∀ {w s} w', BadAt ⟨σ.goal, σ.depth + 1, .expr⟩ w s → BadAt σ ((.opn true, o) :: (w ++ w')) s := by
    intro w s w' ⟨a, t, b, τ, h1, h2, h3⟩
    refine ⟨(.opn true, o) :: a, t, b ++ w', τ, by simp [h1], ?_, h3⟩
    rw [List.map_cons, hrun]; exact h2
  cases x with
  | panic => exact h
  | oof => trivial
  | err e =>
    obtain ⟨h1, h2⟩ := h
    refine ⟨h1, fun hu => ?_⟩
    rcases h2 hu with ⟨h3, h4⟩ | ⟨s, h3, h4⟩
    · refine .inl ⟨h3, .inl ?_⟩
      rcases h4 with ⟨a, t, s, b, τ, h5, h6, h7⟩ | ⟨h5, τ, h6, h7, h8, h9⟩
      · refine ⟨(.opn true, o) :: a, t, s, b ++ (.cls true, c) :: STok.flatL r, τ, by rw [hflat, h5]; simp, ?_, h7⟩
        rw [List.map_cons, hrun]; exact h6
      · refine ⟨(.opn true, o) :: STok.flatL l, .cls true, c, STok.flatL r, τ, by rw [hflat]; simp, ?_, h7, h5, h9⟩
        rw [List.map_cons, hrun]; exact h6
    · exact .inr ⟨s, h3, by rw [hflat]; exact hbad _ h4⟩
  | ok y =>
    obtain ⟨e, l', u'⟩ := y
    obtain ⟨pre, τ, rfl, hq, h1, h2⟩ := h
    refine ⟨[.group true o (pre ++ l') c], _, rfl, rfl, fun hu => ?_, fun hu => ?_⟩
    · rw [h1 hu]
      cases u with
      | none => exact absurd rfl hu
      | some => cases l' <;> rfl
    · have hflat' : STok.flatL [.group true o (pre ++ l') c] = (.opn true, o) :: (STok.flatL pre ++ (STok.flatL l' ++ [(.cls true, c)])) := by
        simp [STok.flatL, STok.flat, STok.flatL_append]
      rcases h2 hu with ⟨h3, h4⟩ | ⟨s, h3, h4⟩
      · subst h3
        cases l' with
        | nil =>
          refine .inl ⟨rfl, ?_⟩
          rw [hflat']
          simp only [List.map_cons, List.map_append, STok.flatL, List.nil_append, List.map_nil]
          rw [hrun, LState.run_append, h4]
          simp only [Option.bind_some, LState.run]
          rw [hq.close (by simp)]
          rfl
        | cons t l' =>
          refine .inr ⟨t.span, rfl, ?_⟩
          rw [hflat']
          obtain ⟨b, hb⟩ := t.flat_hd
          refine ⟨(.opn true, o) :: STok.flatL pre, t.hd, b ++ (STok.flatL l' ++ [(.cls true, c)]), τ, by simp [STok.flatL, hb], ?_,
            hq.step (.inl (by simp)), by rw [hq.close (by simp)]; simp⟩
          rw [List.map_cons, hrun]; exact h4
      · refine .inr ⟨s, ?_, ?_⟩
        · rw [h3]; cases l' <;> rfl
        · rw [hflat']; exact hbad _ h4

theorem LState.step_term {σ : LState} (t : FTok) : LState.step { σ with mode := .term } t = LState.termStep { σ with mode := .term } t := rfl

theorem TermAt.fits {σ : LState} (h : σ.mode = .term ∨ σ.mode = .expr) : AllFit σ [.word "_", .str, .punct '!', .paren, .ident] := by
  intro k hk
  have hs : ∀ t, σ.termStep t ≠ none → σ.step t ≠ none := by
    intro t ht
    rcases h with h | h <;> simp only [LState.step, h]
    · exact ht
    · split
      · simp
      · exact ht
  simp only [List.mem_cons, List.not_mem_nil, or_false] at hk
  rcases hk with rfl | rfl | rfl | rfl | rfl
  · exact ⟨_, rfl, hs _ (by simp [LState.termStep])⟩
  · exact ⟨.str [], ⟨_, rfl⟩, hs _ (by simp [LState.termStep])⟩
  · exact ⟨_, rfl, hs _ (by simp [LState.termStep])⟩
  · exact ⟨_, rfl, hs _ (by simp [LState.termStep])⟩
  · exact ⟨.ident true "x", ⟨_, _, rfl⟩, hs _ (by simp [LState.termStep])⟩

theorem expr_follows (sp : List STok → Nat) : ∀ n, ExprFollows sp n
  | 0 => by
    constructor <;> (intros; simp only [termS, termsS, callS, catItemsS, labelledS, altItemsS, exprS]; trivial)
  | n + 1 => by
    have ih := expr_follows sp n
    constructor
    · intro σ scope ts u h
      simp only [termS]
      split
      · refine ParsesBy.one ?_ rfl
        have := h.step
        simp only [STok.hd] at this
        simp only [STok.flat, List.map_cons, List.map_nil, LState.run, this]; rfl
      · refine ParsesBy.one ?_ rfl
        have := h.step
        simp only [STok.hd] at this
        simp only [STok.flat, List.map_cons, List.map_nil, LState.run, this]; rfl
      · have := h.step
        simp only [STok.hd] at this
        refine ParsesBy.cons (τ := { σ with mode := .term }) ?_ ?_
        · simp only [STok.flat, List.map_cons, List.map_nil, LState.run, this]; rfl
        · refine ParsesBy.bind (ih.term (.inl rfl)) ?_
          intro t r u' τ hτ
          exact ParsesBy.pure hτ
      · have := h.step
        simp only [STok.hd] at this
        exact group_follows (by rw [this]; rfl) (ih.expr rfl)
      · refine ParsesBy.one ?_ rfl
        have := h.step
        simp only [STok.hd] at this
        simp only [STok.flat, List.map_cons, List.map_nil, LState.run, this]; rfl
      · rename_i h1 h2 h3 h4 h5
        have hmode : (σ.mode = .term ∨ σ.mode = .expr) ∧ ∀ t r, ts = t :: r → σ.termStep t.hd = none := by
          have hn : ∀ t r, ts = t :: r → σ.termStep t.hd = none := by
            intro t r ht
            cases t <;> simp only [STok.hd, LState.termStep]
            · exact absurd ht (h5 _ _ _ _)
            · split
              · rename_i hc; subst hc; exact absurd ht (h3 _ _)
              · rfl
            · exact absurd ht (h2 _ _ _)
            · split
              · rename_i hc; subst hc; exact absurd ht (h4 _ _ _ _)
              · rfl
          refine ⟨?_, hn⟩
          rcases h with h | ⟨h, -⟩ | ⟨-, h'⟩
          · exact .inl h
          · exact .inr h
          · cases ts with
            | nil => cases h'
            | cons t r => exact absurd (hn t r rfl) ((peekTermS_iff σ).1 h')
        refine ParsesBy.fail ?_ ?_ (TermAt.fits hmode.1)
        · intro t r ht
          subst ht
          rw [h.step]; exact hmode.2 t r rfl
        · intro ht
          rcases hmode.1 with hm | hm <;> simp [LState.step, hm, LState.termStep]
    · intro σ scope ts u h
      simp only [termsS]
      split
      · rename_i hp
        refine ParsesBy.bind (ih.term (.inr (.inr ⟨h, hp⟩))) ?_
        intro t r u' τ hτ
        refine ParsesBy.bind (ih.terms (by rw [hτ])) ?_
        intro l r u' τ' hτ'
        refine ParsesBy.pure ?_
        rw [hτ] at hτ'
        exact hτ'
      · rename_i hp
        refine ParsesBy.pure ⟨?_, by simpa using hp⟩
        rw [← h]
    · intro σ scope ts u h
      simp only [callS]
      refine ParsesBy.bind (ih.term h) ?_
      intro t r u' τ hτ
      refine ParsesBy.bind (ih.terms (by rw [hτ])) ?_
      intro l r u' τ' hτ'
      refine ParsesBy.pure ?_
      rw [hτ] at hτ'
      exact hτ'
    · intro σ scope ts u h
      simp only [catItemsS]
      refine ParsesBy.bind (ih.call h) ?_
      intro x r u' τ hτ
      dsimp only
      split
      · refine ParsesBy.cons (τ := { σ with mode := .term }) ?_ ?_
        · rw [hτ.1]; rfl
        · refine ParsesBy.bind (ih.cat (.inl rfl)) ?_
          intro l r u' τ hτ
          exact ParsesBy.pure hτ
      · rename_i hne
        refine ParsesBy.pure ⟨hτ, ?_⟩
        cases hp : peekPunctS '.' r with
        | false => rfl
        | true => obtain ⟨s, r', hr⟩ := peekPunctS_iff.1 hp; exact absurd hr (hne _ _)
    · intro σ scope ts u h
      simp only [labelledS]
      refine ParsesBy.bind (ih.cat h) ?_
      intro l r u' τ hτ
      dsimp only
      split
      · refine ParsesBy.cons (τ := { σ with mode := .label }) ?_ ?_
        · rw [hτ.1.1]; rfl
        · refine ParsesBy.bind (anyIdentS_follows (τ := { σ with mode := .afterLabel }) (fun _ _ => rfl) ?_ (by simp)) ?_
          · intro t ht
            cases t <;> simp only [LState.step]
            exact absurd rfl (ht _ _)
          · intro i r u' τ hτ
            exact ParsesBy.pure (.inr hτ)
      · rename_i hne
        refine ParsesBy.pure (.inl ⟨hτ, ?_⟩)
        cases hp : peekPunctS ':' r with
        | false => rfl
        | true => obtain ⟨s, r', hr⟩ := peekPunctS_iff.1 hp; exact absurd hr (hne _ _)
    · intro σ scope ts u h
      simp only [altItemsS]
      refine ParsesBy.bind (ih.labelled h) ?_
      intro x r u' τ hτ
      dsimp only
      split
      · refine ParsesBy.cons (τ := { σ with mode := .term }) ?_ ?_
        · rcases hτ with ⟨⟨⟨rfl, -⟩, -⟩, -⟩ | rfl
          · simp [STok.flat, LState.run, LState.step, LState.termStep, LState.closeStep]
          · simp [STok.flat, LState.run, LState.step, LState.closeStep]
        · refine ParsesBy.bind (ih.alt (.inl rfl)) ?_
          intro l r u' τ hτ
          exact ParsesBy.pure hτ
      · rename_i hne
        refine ParsesBy.pure ⟨hτ, ?_⟩
        cases hp : peekPunctS '|' r with
        | false => rfl
        | true => obtain ⟨s, r', hr⟩ := peekPunctS_iff.1 hp; exact absurd hr (hne _ _)
    · intro σ scope ts u h
      simp only [exprS]
      split
      · rename_i s r
        refine ParsesBy.cons (τ := { σ with mode := .lam0 }) ?_ ?_
        · simp [STok.flat, LState.run, LState.step, h]
        · refine ParsesBy.bind (lamArgsS_follows n (.inl rfl)) ?_
          intro args r u' τ hτ
          obtain ⟨hτ, hp⟩ := hτ
          obtain ⟨s', r', hr⟩ := peekPunctS_iff.1 hp
          subst hτ
          refine ParsesBy.bind (punctS_follows (τ := { σ with mode := .term }) (by simp [LState.step]) ?_ ?_) ?_
          · intro t r' ht hne
            rw [hr] at ht
            cases ht
            exact absurd rfl hne
          · intro h0; rw [hr] at h0; cases h0
          · intro _ r u' τ hτ
            subst hτ
            refine ParsesBy.bind (ih.alt (.inl rfl)) ?_
            intro l r u' τ hτ
            exact ParsesBy.pure hτ
      · rename_i hne
        refine ParsesBy.bind (ih.alt (.inr (.inl ⟨h, ?_⟩))) ?_
        · cases hp : peekPunctS '/' ts with
          | false => rfl
          | true => obtain ⟨s, r', hr⟩ := peekPunctS_iff.1 hp; exact absurd hr (hne _ _)
        · intro l r u' τ hτ
          exact ParsesBy.pure hτ

theorem stmtS_follows (sp : List STok → Nat) : ∀ (n : Nat) {σ : LState} {scope : Option Nat} {ts : List STok} {u : Option Nat}, σ.mode = .stmt → σ.depth = 0 →
    ParsesBy σ scope ts u (fun _ _ τ => τ = ⟨true, 0, .done⟩) (stmtS sp n scope ts u)
  | 0, _, _, _, _, _, _ => trivial
  | n + 1, σ, scope, ts, u, h, hd0 => by
    have hexpr : ∀ {σ : LState} {r : List STok} {u' : Option Nat}, σ.mode = .expr → σ.depth = 0 →
        ∀ {β : Type} {Q : β → List STok → LState → Prop} {f : Expr × List STok × Option Nat → Nat × List STok × Option Nat → SR β},
          (∀ y s r' u', ParsesBy { σ with mode := if σ.goal then .done else .stmt } scope r' u' Q (f y (s, r', u'))) →
          ParsesBy σ scope r u' Q ((exprS sp n scope r u').bind fun y => (punctS ';' scope y.2.1 y.2.2).bind (f y)) := by
      intro σ r u' hm hd β Q f hf
      refine ParsesBy.bind ((expr_follows sp n).expr hm) ?_
      intro e r u' τ hτ
      obtain ⟨h1, h2, h3⟩ := hτ.semi hd
      refine ParsesBy.bind (punctS_follows h1 ?_ fun _ => ⟨h2, h3⟩) ?_
      · intro t r' ht hne
        subst ht
        exact hτ.step (.inr hne)
      · intro s r' u' τ hτ
        subst hτ
        exact hf _ _ _ _
    simp only [stmtS]
    split
    · rename_i s r
      refine ParsesBy.cons (τ := ⟨false, 0, .letName⟩) ?_ ?_
      · simp [STok.flat, LState.run, LState.step, h, hd0]
      refine ParsesBy.bind (anyIdentS_follows (τ := ⟨false, 0, .letArgs⟩) (fun _ _ => rfl) ?_ (by simp)) ?_
      · intro t ht
        cases t <;> simp only [LState.step]
        exact absurd rfl (ht _ _)
      intro x r u' τ hτ
      subst hτ
      refine ParsesBy.bind (letArgsS_follows n rfl) ?_
      intro args r u' τ ⟨hτ, hp⟩
      subst hτ
      obtain ⟨s', r', hr⟩ := peekPunctS_iff.1 hp
      refine ParsesBy.bind (punctS_follows (τ := ⟨false, 0, .expr⟩) (by simp [LState.step]) ?_ ?_) ?_
      · intro t r' ht hne
        rw [hr] at ht
        cases ht
        exact absurd rfl hne
      · intro h0; rw [hr] at h0; cases h0
      intro _ r u' τ hτ
      subst hτ
      refine hexpr (σ := ⟨false, 0, .expr⟩) rfl rfl ?_
      intro y s r' u'
      refine ParsesBy.bind (stmtS_follows sp n rfl rfl) ?_
      intro next r u' τ hτ
      exact ParsesBy.pure hτ
    · rename_i s r
      refine ParsesBy.cons (τ := ⟨true, 0, .expr⟩) ?_ ?_
      · simp [STok.flat, LState.run, LState.step, h, hd0]
      refine hexpr (σ := ⟨true, 0, .expr⟩) rfl rfl ?_
      intro y s r' u'
      exact ParsesBy.pure rfl
    · rename_i h1 h2
      refine ParsesBy.fail ?_ (fun _ => ⟨by simp only [LState.step, h], by simp [h]⟩) ?_
      · intro t r ht
        cases t <;> simp only [STok.hd, LState.step, h]
        rename_i raw sym s
        split
        · rename_i hc; obtain ⟨rfl, rfl⟩ := hc; exact absurd ht (h1 _ _)
        · split
          · rename_i hc; obtain ⟨rfl, rfl⟩ := hc; exact absurd ht (h2 _ _)
          · rfl
      · intro k hk
        simp only [List.mem_cons, List.not_mem_nil, or_false] at hk
        rcases hk with rfl | rfl
        · exact ⟨_, rfl, by simp [LState.step, h]⟩
        · exact ⟨_, rfl, by simp [LState.step, h]⟩

end

end Chomp
