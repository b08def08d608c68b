import Verif.Nibble.SpannedSim
import Verif.Nibble.SkimSim

/-! # C84: syntax errors -/

namespace Chomp

section
variable [Reserved]

/-! ## Beginnings of programs are the runs of the automaton -/

mutual
def Tok.place : Tok → STok
  | .ident r s => .ident r s 0
  | .punct c => .punct c 0
  | .str v => .str v 0
  | .other => .other 0
  | .group p l => .group p 0 (Tok.placeL l) 0
def Tok.placeL : List Tok → List STok
  | [] => []
  | t :: l => t.place :: Tok.placeL l
end

mutual
theorem Tok.erase_place : ∀ t : Tok, t.place.erase = t
  | .ident _ _ => rfl
  | .punct _ => rfl
  | .str _ => rfl
  | .other => rfl
  | .group p l => by simp [Tok.place, STok.erase, Tok.erase_placeL l]
theorem Tok.erase_placeL : ∀ l : List Tok, STok.eraseL (Tok.placeL l) = l
  | [] => rfl
  | t :: l => by simp [Tok.placeL, STok.eraseL, Tok.erase_place t, Tok.erase_placeL l]
end

theorem parseProgram_ok {ts : List Tok} {s : Stmt} :
    parseProgram ts = .ok s ↔ parseStmt (8 * Tok.sizeL ts + 9) ts = .ok (s, []) := by
  unfold parseProgram
  cases h : parseStmt (8 * Tok.sizeL ts + 9) ts with
  | ok y =>
    obtain ⟨s', r⟩ := y
    cases r with
    | nil => simp [Out.bind]
    | cons => simp [Out.bind]
  | err => simp [Out.bind]
  | panic => simp [Out.bind]
  | oof => simp [Out.bind]

/-- Programs are accepted. -/
theorem run_of_program {ts : List Tok} {s : Stmt} (h : parseProgram ts = .ok s) :
    LState.start.run (Tok.flatL ts) = some ⟨true, 0, .done⟩ := by
  have h1 := stmtS_agree (fun _ => 0) (8 * Tok.sizeL ts + 9) none (Tok.placeL ts)
  rw [Tok.erase_placeL, parseProgram_ok.1 h] at h1
  have h2 := stmtS_follows (fun _ => 0) (8 * Tok.sizeL ts + 9) (σ := LState.start) (scope := none) (ts := Tok.placeL ts) (u := none) rfl rfl
  revert h1 h2
  cases stmtS (fun _ => 0) (8 * Tok.sizeL ts + 9) none (Tok.placeL ts) none with
  | ok y =>
    obtain ⟨x, r, u⟩ := y
    rintro ⟨rfl, h1, h2⟩ ⟨pre, τ, h3, rfl, -, h4⟩
    rcases h4 rfl with ⟨-, h4⟩ | ⟨s, h4, -⟩
    · have hr : r = [] := by
        cases r with
        | nil => rfl
        | cons => simp [STok.eraseL] at h2
      subst hr
      rw [List.append_nil] at h3
      rw [← h3, STok.flatL_erase, Tok.erase_placeL] at h4
      exact h4
    · cases h4
  | err => intro h; exact h.elim
  | oof => intro h; exact h.elim
  | panic => intro h; exact h.elim

/-- Tokens with `d` more closing parentheses than opening ones. -/
inductive Closes : Nat → List FTok → Prop
  | nil (l : List Tok) : Closes 0 (Tok.flatL l)
  | cons {d : Nat} (l : List Tok) {w : List FTok} : Closes d w → Closes (d + 1) (Tok.flatL l ++ .cls true :: w)

theorem Closes.push {d : Nat} {w : List FTok} (h : Closes d w) (t : Tok) : Closes d (t.flat ++ w) := by
  cases h with
  | nil l => exact .nil (t :: l)
  | cons l h =>
    rw [← List.append_assoc]
    exact .cons (t :: l) h

theorem LState.step_depth {σ τ : LState} {t : FTok} (h : σ.step t = some τ) :
    (t = .opn true ∧ τ.depth = σ.depth + 1) ∨ (t = .cls true ∧ σ.depth = τ.depth + 1) ∨
    (∃ x : Tok, x.flat = [t] ∧ τ.depth = σ.depth) := by
  have ht : ∀ {τ}, σ.termStep t = some τ → (t = .opn true ∧ τ.depth = σ.depth + 1) ∨ (t = .cls true ∧ σ.depth = τ.depth + 1) ∨
      (∃ x : Tok, x.flat = [t] ∧ τ.depth = σ.depth) := by
    intro τ h
    unfold LState.termStep at h
    split at h
    · cases h; exact .inr (.inr ⟨.ident _ _, rfl, rfl⟩)
    · cases h; exact .inr (.inr ⟨.str _, rfl, rfl⟩)
    · split at h <;> cases h
      exact .inr (.inr ⟨.punct _, rfl, rfl⟩)
    · split at h
      · rename_i hp
        cases h
        exact .inl ⟨by rw [hp], rfl⟩
      · cases h
    · cases h
  have hc : ∀ {τ}, σ.closeStep t = some τ → (t = .opn true ∧ τ.depth = σ.depth + 1) ∨ (t = .cls true ∧ σ.depth = τ.depth + 1) ∨
      (∃ x : Tok, x.flat = [t] ∧ τ.depth = σ.depth) := by
    intro τ h
    unfold LState.closeStep at h
    split at h
    · refine .inr (.inr ⟨.punct _, rfl, ?_⟩)
      split at h
      · cases h; rfl
      · split at h
        · split at h
          · cases h; rfl
          · cases h
        · cases h
    · split at h
      · rename_i p hp
        cases h
        refine .inr (.inl ⟨by rw [hp.1], ?_⟩)
        have := hp.2
        dsimp only
        omega
      · cases h
    · cases h
  unfold LState.step at h
  split at h
  · split at h
    · refine .inr (.inr ⟨.ident _ _, rfl, ?_⟩)
      split at h
      · cases h; rfl
      · split at h <;> cases h; rfl
    · cases h
  · split at h <;> cases h
    exact .inr (.inr ⟨.ident _ _, rfl, rfl⟩)
  · split at h
    · split at h <;> cases h
      exact .inr (.inr ⟨.punct _, rfl, rfl⟩)
    · split at h <;> cases h
      exact .inr (.inr ⟨.ident _ _, rfl, rfl⟩)
    · cases h
  · split at h
    · rename_i h1
      subst h1
      cases h
      exact .inr (.inr ⟨.punct _, rfl, rfl⟩)
    · exact ht h
  · split at h
    · split at h <;> cases h
      exact .inr (.inr ⟨.ident _ _, rfl, rfl⟩)
    · cases h
  · split at h
    · split at h <;> cases h
      exact .inr (.inr ⟨.punct _, rfl, rfl⟩)
    · split at h <;> cases h
      exact .inr (.inr ⟨.ident _ _, rfl, rfl⟩)
    · cases h
  · exact ht h
  · split at h
    · rename_i h1; subst h1; cases h; exact .inr (.inr ⟨.punct _, rfl, rfl⟩)
    · split at h
      · rename_i h1; subst h1; cases h; exact .inr (.inr ⟨.punct _, rfl, rfl⟩)
      · split at h
        · rename_i h1; cases h; exact ht h1
        · exact hc h
  · split at h <;> cases h
    exact .inr (.inr ⟨.ident _ _, rfl, rfl⟩)
  · exact hc h
  · cases h

theorem closes_of_run : ∀ (w : List FTok) {σ τ : LState}, σ.run w = some τ → τ.depth = 0 → Closes σ.depth w
  | [], σ, τ, h, hd => by
    cases h
    rw [hd]
    exact .nil []
  | t :: w, σ, τ, h, hd => by
    simp only [LState.run] at h
    cases hs : σ.step t with
    | none => rw [hs] at h; cases h
    | some ρ =>
      rw [hs] at h
      have ih := closes_of_run w h hd
      rcases LState.step_depth hs with ⟨rfl, h1⟩ | ⟨rfl, h1⟩ | ⟨x, h1, h2⟩
      · rw [h1] at ih
        cases ih with
        | cons l h2 =>
          have := h2.push (.group true l)
          simpa [Tok.flat] using this
      · rw [h1]
        exact .cons [] ih
      · rw [h2] at ih
        have := ih.push x
        rwa [h1] at this

/-- What is accepted is a program. -/
theorem program_of_run {w : List FTok} (h : LState.start.run w = some ⟨true, 0, .done⟩) : ∃ ts s, parseProgram ts = .ok s ∧ Tok.flatL ts = w := by
  have h0 := closes_of_run w h rfl
  generalize hd : LState.start.depth = d at h0
  cases h0 with
  | cons => cases hd
  | nil ts =>
    have he := stmt_ends (fun _ => 0) (8 * Tok.sizeL ts + 9) none (Tok.placeL ts) none (by
      rw [STok.sizeL_erase, Tok.erase_placeL]; omega)
    have hf := stmtS_follows (fun _ => 0) (8 * Tok.sizeL ts + 9) (σ := LState.start) (scope := none) (ts := Tok.placeL ts) (u := none) rfl rfl
    have ha := stmtS_agree (fun _ => 0) (8 * Tok.sizeL ts + 9) none (Tok.placeL ts)
    have hflat : (STok.flatL (Tok.placeL ts)).map (·.1) = Tok.flatL ts := by rw [STok.flatL_erase, Tok.erase_placeL]
    rw [Tok.erase_placeL] at ha
    have hbad : ∀ {a : List (FTok × Nat)} {t s b τ}, STok.flatL (Tok.placeL ts) = a ++ (t, s) :: b → LState.start.run (a.map (·.1)) = some τ →
        τ.step t = none → False := by
      intro a t s b τ h1 h2 h3
      rw [h1] at hflat
      rw [← hflat, List.map_append, LState.run_append, h2] at h
      simp [LState.run, h3] at h
    revert he hf ha
    cases hx : stmtS (fun _ => 0) (8 * Tok.sizeL ts + 9) none (Tok.placeL ts) none with
    | oof => intro he; exact he.elim
    | panic => intro _ hf; exact hf.elim
    | err e =>
      rintro - ⟨-, hf⟩ -
      exfalso
      rcases hf rfl with ⟨-, ⟨a, t, s, b, τ, h1, h2, h3, -⟩ | ⟨-, τ, h1, -, h2, -⟩⟩ | ⟨s, -, a, t, b, τ, h1, h2, h3, -⟩
      · exact hbad h1 h2 h3
      · rw [hflat, h] at h1
        cases h1
        exact h2 rfl
      · exact hbad h1 h2 h3
    | ok y =>
      obtain ⟨x, r, u⟩ := y
      rintro - ⟨pre, τ, h1, rfl, -, h2⟩ ha
      rcases h2 rfl with ⟨hu, h2⟩ | ⟨s, -, a, t, b, τ, h3, h4, h5, -⟩
      · cases r with
        | cons t r =>
          exfalso
          obtain ⟨b, hb⟩ := t.flat_hd
          exact hbad (a := STok.flatL pre) (t := t.hd) (s := t.span) (b := b ++ STok.flatL r)
            (by rw [h1, STok.flatL_append, STok.flatL, hb]; rfl) h2 rfl
        | nil =>
          revert ha
          cases hp : parseStmt (8 * Tok.sizeL ts + 9) ts with
          | ok z =>
            obtain ⟨s, r0⟩ := z
            rintro ⟨-, -, h3⟩
            cases h3
            exact ⟨ts, s, parseProgram_ok.2 hp, rfl⟩
          | err => intro ha; exact absurd hu ha
          | oof => intro ha; exact ha.elim
          | panic => intro ha; exact ha.elim
      · exfalso
        refine hbad (a := a) (t := t) (s := s) (b := b ++ STok.flatL r) ?_ h4 h5
        rw [h1, STok.flatL_append, h3]; simp

theorem finish_stmt (g : Bool) : LState.run ⟨g, 0, .stmt⟩ [.ident false "match", .str [], .punct ';'] = some ⟨true, 0, .done⟩ := by
  cases g <;> rfl

theorem finish_close : ∀ (d : Nat) (g : Bool) (m : LMode), m = .after ∨ m = .afterLabel → ∃ w, LState.run ⟨g, d, m⟩ w = some ⟨true, 0, .done⟩
  | 0, true, m, h => ⟨[.punct ';'], by rcases h with rfl | rfl <;> rfl⟩
  | 0, false, m, h => ⟨.punct ';' :: [.ident false "match", .str [], .punct ';'], by rcases h with rfl | rfl <;> rfl⟩
  | d + 1, g, m, h => by
    obtain ⟨w, hw⟩ := finish_close d g .after (.inl rfl)
    refine ⟨.cls true :: w, ?_⟩
    have : LState.step ⟨g, d + 1, m⟩ (.cls true) = some ⟨g, d, .after⟩ := by
      rcases h with rfl | rfl <;> simp [LState.step, LState.termStep, LState.closeStep]
    rw [LState.run, this]; exact hw

/-- Every state can be completed, unless it is a statement inside parentheses. -/
theorem LState.finish (σ : LState) (h : σ.depth ≠ 0 → σ.mode ≠ .stmt ∧ σ.mode ≠ .letName ∧ σ.mode ≠ .letArgs ∧ σ.mode ≠ .done) (hg : σ.mode = .done → σ.goal = true) :
    ∃ w, σ.run w = some ⟨true, 0, .done⟩ := by
  obtain ⟨g, d, m⟩ := σ
  obtain ⟨w, hw⟩ := finish_close d g .after (.inl rfl)
  obtain ⟨w', hw'⟩ := finish_close d g .afterLabel (.inr rfl)
  dsimp only at h hg
  cases m with
  | stmt =>
    have : d = 0 := by by_cases h0 : d = 0; exact h0; exact absurd rfl (h h0).1
    subst this; exact ⟨_, finish_stmt g⟩
  | letName => exact ⟨.ident false "x" :: .punct '=' :: .str [] :: w, hw⟩
  | letArgs => exact ⟨.punct '=' :: .str [] :: w, hw⟩
  | expr => exact ⟨.str [] :: w, hw⟩
  | lam0 => exact ⟨.ident true "x" :: .punct '/' :: .str [] :: w, hw⟩
  | lam1 => exact ⟨.punct '/' :: .str [] :: w, hw⟩
  | term => exact ⟨.str [] :: w, hw⟩
  | after => exact ⟨w, hw⟩
  | label => exact ⟨.ident false "x" :: w', hw'⟩
  | afterLabel => exact ⟨w', hw'⟩
  | done =>
    have : d = 0 := by by_cases h0 : d = 0; exact h0; exact absurd rfl (h h0).2.2.2
    subst this
    have := hg rfl
    subst this
    exact ⟨[], rfl⟩

/-- What holds of every state that is reached. -/
def LState.Fine (σ : LState) : Prop :=
  (σ.depth ≠ 0 → σ.mode ≠ .stmt ∧ σ.mode ≠ .letName ∧ σ.mode ≠ .letArgs ∧ σ.mode ≠ .done) ∧ (σ.mode = .done → σ.goal = true)

theorem LState.Fine.step {σ τ : LState} {t : FTok} (h : σ.Fine) (hs : σ.step t = some τ) : τ.Fine := by
  have ht : ∀ {τ}, σ.termStep t = some τ → τ.Fine := by
    intro τ h
    unfold LState.termStep at h
    split at h
    · cases h; exact ⟨by simp, by simp⟩
    · cases h; exact ⟨by simp, by simp⟩
    · split at h <;> cases h; exact ⟨by simp, by simp⟩
    · split at h <;> cases h; exact ⟨by simp, by simp⟩
    · cases h
  have hc : ∀ {τ}, σ.closeStep t = some τ → τ.Fine := by
    intro τ h
    unfold LState.closeStep at h
    split at h
    · split at h
      · cases h; exact ⟨by simp, by simp⟩
      · split at h
        · split at h
          · rename_i hd
            cases h
            refine ⟨fun h0 => absurd hd h0, ?_⟩
            dsimp only
            split
            · rename_i hg; exact fun _ => hg
            · intro h; cases h
          · cases h
        · cases h
    · split at h
      · cases h; exact ⟨by simp, by simp⟩
      · cases h
    · cases h
  obtain ⟨g, d, m⟩ := σ
  unfold LState.step at hs
  dsimp only at hs
  cases m <;> dsimp only at hs
  · have : d = 0 := by
      by_cases h0 : d = 0
      · exact h0
      · exact absurd rfl (h.1 h0).1
    subst this
    split at hs
    · split at hs
      · cases hs; exact ⟨by simp, by simp⟩
      · split at hs <;> cases hs; exact ⟨by simp, by simp⟩
    · cases hs
  · have : d = 0 := by
      by_cases h0 : d = 0
      · exact h0
      · exact absurd rfl (h.1 h0).2.1
    subst this
    split at hs <;> cases hs; exact ⟨by simp, by simp⟩
  · have : d = 0 := by
      by_cases h0 : d = 0
      · exact h0
      · exact absurd rfl (h.1 h0).2.2.1
    subst this
    split at hs
    · split at hs <;> cases hs; exact ⟨by simp, by simp⟩
    · split at hs <;> cases hs; exact ⟨by simp, by simp⟩
    · cases hs
  · split at hs
    · cases hs; exact ⟨by simp, by simp⟩
    · exact ht hs
  · split at hs
    · split at hs <;> cases hs; exact ⟨by simp, by simp⟩
    · cases hs
  · split at hs
    · split at hs <;> cases hs; exact ⟨by simp, by simp⟩
    · split at hs <;> cases hs; exact ⟨by simp, by simp⟩
    · cases hs
  · exact ht hs
  · split at hs
    · cases hs; exact ⟨by simp, by simp⟩
    · split at hs
      · cases hs; exact ⟨by simp, by simp⟩
      · split at hs
        · rename_i h1; cases hs; exact ht h1
        · exact hc hs
  · split at hs <;> cases hs; exact ⟨by simp, by simp⟩
  · exact hc hs
  · cases hs

theorem LState.Fine.run : ∀ (w : List FTok) {σ τ : LState}, σ.Fine → σ.run w = some τ → τ.Fine
  | [], σ, τ, h, hr => by cases hr; exact h
  | t :: w, σ, τ, h, hr => by
    simp only [LState.run] at hr
    cases hs : σ.step t with
    | none => rw [hs] at hr; cases hr
    | some ρ => rw [hs] at hr; exact LState.Fine.run w (h.step hs) hr

theorem canContinue_iff (w : List FTok) : CanContinue w ↔ ∃ τ, LState.start.run w = some τ := by
  constructor
  · rintro ⟨ts, s, h, rest, hr⟩
    have := run_of_program h
    rw [hr, LState.run_append] at this
    cases hw : LState.start.run w with
    | none => rw [hw] at this; cases this
    | some τ => exact ⟨τ, rfl⟩
  · rintro ⟨τ, h⟩
    have hf : τ.Fine := LState.Fine.run w ⟨by simp [LState.start], by simp [LState.start]⟩ h
    obtain ⟨w', hw'⟩ := τ.finish hf.1 hf.2
    obtain ⟨ts, s, h1, h2⟩ := program_of_run (w := w ++ w') (by rw [LState.run_append, h]; exact hw')
    exact ⟨ts, s, h1, w', h2⟩

theorem canContinue_snoc {w : List FTok} {τ : LState} (h : LState.start.run w = some τ) (t : FTok) : CanContinue (w ++ [t]) ↔ τ.step t ≠ none := by
  rw [canContinue_iff, LState.run_append, h]
  simp only [Option.bind_some, LState.run]
  cases τ.step t with
  | none => simp
  | some => simp

/-! ## The properties -/

/-- **C84** The parser always ends, with a program or an error. -/
theorem C84_parser_terminates (sp : List STok → Nat) (ts : List STok) : parseSpanned sp ts ≠ .oof ∧ parseSpanned sp ts ≠ .panic := by
  have he := stmt_ends sp (8 * STok.sizeL ts + 9) none ts none (by omega)
  have hf := stmtS_follows sp (8 * STok.sizeL ts + 9) (σ := LState.start) (scope := none) (ts := ts) (u := none) rfl rfl
  unfold parseSpanned
  revert he hf
  cases stmtS sp (8 * STok.sizeL ts + 9) none ts none with
  | oof => intro he; exact he.elim
  | panic => intro _ hf; exact hf.elim
  | err e => intro _ _; exact ⟨nofun, nofun⟩
  | ok y =>
    obtain ⟨x, r, u⟩ := y
    intro _ _
    simp only [Out.bind]
    split <;> exact ⟨nofun, nofun⟩

/-- **C84** Places do not matter for what is accepted, and not for the tree apart from its places. -/
theorem C84_agrees (sp : List STok → Nat) (ts : List STok) (s : Stmt) :
    parseProgram (STok.eraseL ts) = .ok s ↔ ∃ s', parseSpanned sp ts = .ok s' ∧ s'.unspan = s := by
  have ha := stmtS_agree sp (8 * STok.sizeL ts + 9) none ts
  rw [parseProgram_ok, ← STok.sizeL_erase]
  unfold parseSpanned
  revert ha
  cases stmtS sp (8 * STok.sizeL ts + 9) none ts none with
  | oof =>
    cases parseStmt (8 * STok.sizeL ts + 9) (STok.eraseL ts) with
    | ok z => intro ha; exact ha.elim
    | _ => intro _; simp [Out.bind]
  | panic =>
    cases parseStmt (8 * STok.sizeL ts + 9) (STok.eraseL ts) <;> (intro ha; exact ha.elim)
  | err e =>
    cases parseStmt (8 * STok.sizeL ts + 9) (STok.eraseL ts) with
    | ok z => intro ha; exact ha.elim
    | _ => intro _; simp [Out.bind]
  | ok y =>
    obtain ⟨x, r, u⟩ := y
    cases parseStmt (8 * STok.sizeL ts + 9) (STok.eraseL ts) with
    | ok z =>
      obtain ⟨x0, r0⟩ := z
      rintro ⟨rfl, h2, h3⟩
      subst h2 h3
      cases r with
      | nil => simp [Out.bind, STok.eraseL]
      | cons t r => simp [Out.bind, STok.eraseL]
    | err =>
      intro ha
      cases u with
      | none => exact absurd rfl ha
      | some p => simp [Out.bind]
    | oof => intro ha; exact ha.elim
    | panic => intro ha; exact ha.elim

/-- The first token that no program can have after the tokens before it. -/
def FirstBad (ts : List STok) (a : List FTok) (t : FTok) (p : Nat) : Prop :=
  ∃ a' b, STok.flatL ts = a' ++ (t, p) :: b ∧ a'.map (·.1) = a ∧ CanContinue a ∧ ¬ CanContinue (a ++ [t])

/-- Every kind of token in the list can follow. -/
def AllPossible (a : List FTok) (l : List Expect) : Prop := ∀ k ∈ l, ∃ t, k.Fits t ∧ CanContinue (a ++ [t])

theorem AllFit.possible {τ : LState} {w : List FTok} {l : List Expect} (h : AllFit τ l) (hw : LState.start.run w = some τ) : AllPossible w l := by
  intro k hk
  obtain ⟨t, h1, h2⟩ := h k hk
  exact ⟨t, h1, (canContinue_snoc hw t).2 h2⟩

/-- **C84** What an error means.  Either all the tokens are the beginning of a program, but not a program, and the
error is at the end; or there is a first token that cannot follow those before it and the error is at that token – unless this is
inside parentheses that could have been closed there (a token left over). -/
theorem C84_error_at_first_bad (sp : List STok → Nat) (ts : List STok) (e : SynErr) (h : parseSpanned sp ts = .err e) :
    (e.loc = none ∧ CanContinue ((STok.flatL ts).map (·.1)) ∧ (∀ s, parseProgram (STok.eraseL ts) ≠ .ok s) ∧
      AllPossible ((STok.flatL ts).map (·.1)) e.expected) ∨
    ∃ a t p, FirstBad ts a t p ∧ ((e.loc = some p ∧ AllPossible a e.expected) ∨ CanContinue (a ++ [.cls true])) := by
  have hno : ∀ s, parseProgram (STok.eraseL ts) ≠ .ok s := by
    intro s hs
    obtain ⟨s', h1, -⟩ := (C84_agrees sp ts s).1 hs
    rw [h] at h1; cases h1
  have hf := stmtS_follows sp (8 * STok.sizeL ts + 9) (σ := LState.start) (scope := none) (ts := ts) (u := none) rfl rfl
  have hbad : ∀ {a : List (FTok × Nat)} {t p b τ}, STok.flatL ts = a ++ (t, p) :: b → LState.start.run (a.map (·.1)) = some τ →
      τ.step t = none → FirstBad ts (a.map (·.1)) t p := by
    intro a t p b τ h1 h2 h3
    exact ⟨a, b, h1, rfl, (canContinue_iff _).2 ⟨τ, h2⟩, fun hc => (canContinue_snoc h2 t).1 hc h3⟩
  unfold parseSpanned at h
  revert hf h
  cases stmtS sp (8 * STok.sizeL ts + 9) none ts none with
  | oof => intro h; cases h
  | panic => intro h; cases h
  | err e' =>
    rintro h ⟨-, hf⟩
    cases h
    rcases hf rfl with ⟨-, ⟨a, t, s, b, τ, h1, h2, h3, h4, h5⟩ | ⟨h0, τ, h1, -, h2, h3⟩⟩ | ⟨s, -, a, t, b, τ, h1, h2, h3, h4⟩
    · exact .inr ⟨_, t, s, hbad h1 h2 h3, .inl ⟨h4, h5.possible h2⟩⟩
    · exact .inl ⟨h0, (canContinue_iff _).2 ⟨τ, h1⟩, hno, h3.possible h1⟩
    · exact .inr ⟨_, t, s, hbad h1 h2 h3, .inr ((canContinue_snoc h2 _).2 h4)⟩
  | ok y =>
    obtain ⟨x, r, u⟩ := y
    rintro h ⟨pre, τ, rfl, rfl, -, hf⟩
    right
    rcases hf rfl with ⟨rfl, h2⟩ | ⟨s, rfl, a, t, b, τ, h3, h4, h5, h6⟩
    · cases r with
      | nil => cases h
      | cons t r =>
        cases h
        obtain ⟨b, hb⟩ := t.flat_hd
        exact ⟨_, t.hd, t.span, hbad (a := STok.flatL pre) (b := b ++ STok.flatL r) (by rw [STok.flatL_append, STok.flatL, hb]; rfl) h2 rfl,
          .inl ⟨rfl, nofun⟩⟩
    · cases h
      exact ⟨_, t, s, hbad (a := a) (b := b ++ STok.flatL r) (by rw [STok.flatL_append, h3]; simp) h4 h5, .inl ⟨rfl, nofun⟩⟩


/-- Reading the tokens, leaving out what cannot follow where parentheses can be closed, up to the closing one: `k` is what
remains of the tokens `a`. -/
inductive Kept : List (FTok × Nat) → List FTok → Prop
  | nil : Kept [] []
  | keep {a : List (FTok × Nat)} {k : List FTok} {t : FTok} {p : Nat} : Kept a k → CanContinue (k ++ [t]) → Kept (a ++ [(t, p)]) (k ++ [t])
  | skip {a : List (FTok × Nat)} {k : List FTok} {t : STok} {l : List STok} {q : Nat} : Kept a k → ¬ CanContinue (k ++ [t.hd]) →
      CanContinue (k ++ [.cls true]) → Kept (a ++ STok.flatL (t :: l) ++ [(.cls true, q)]) (k ++ [.cls true])

theorem Skim.kept {σ τ : LState} {b : List (FTok × Nat)} {k' : List FTok} (h : Skim σ b k' τ) :
    ∀ {a : List (FTok × Nat)} {k : List FTok}, Kept a k → LState.start.run k = some σ → Kept (a ++ b) (k ++ k') := by
  induction h with
  | nil => intro a k hk _; simpa using hk
  | @keep σ ρ τ t p b k' h1 _ ih =>
    intro a k hk hr
    have := ih (.keep (p := p) hk ((canContinue_snoc hr t).2 (by rw [h1]; simp))) (by rw [LState.run_append, hr]; simp [LState.run, h1])
    simpa using this
  | @skip σ ρ τ t l q b k' h1 h2 _ ih =>
    intro a k hk hr
    have := ih (.skip (t := t) (l := l) (q := q) hk (fun hc => (canContinue_snoc hr _).1 hc h1) ((canContinue_snoc hr _).2 (by rw [h2]; simp)))
      (by rw [LState.run_append, hr]; simp [LState.run, h2])
    simpa using this

theorem Kept.canContinue {a : List (FTok × Nat)} {k : List FTok} (h : Kept a k) : CanContinue k := by
  cases h with
  | nil => exact (canContinue_iff _).2 ⟨_, rfl⟩
  | keep _ h => exact h
  | skip _ _ h => exact h

/-- The tokens are a program. -/
def IsProgram (w : List FTok) : Prop := ∃ ts s, parseProgram ts = .ok s ∧ Tok.flatL ts = w

theorem isProgram_iff (w : List FTok) : IsProgram w ↔ LState.start.run w = some ⟨true, 0, .done⟩ :=
  ⟨fun ⟨_, _, h, hw⟩ => hw ▸ run_of_program h, program_of_run⟩

/-- **C84** What every error means.  (1) Apart from what is left over in parentheses, there is a first token that cannot follow those before
it; the error is at that token, and all that it says was expected could have been there.  (2) Apart from what is left over, the tokens
begin a program and end too early; the error is at the end, and all that was expected could follow.  (3) Apart from what is left over, the
tokens are a program, perhaps with more after it; the error is at the first token that cannot follow those before it. -/
theorem C84_error_place (sp : List STok → Nat) (ts : List STok) (e : SynErr) (h : parseSpanned sp ts = .err e) :
    (∃ a t p b k, STok.flatL ts = a ++ (t, p) :: b ∧ Kept a k ∧ ¬ CanContinue (k ++ [t]) ∧ ¬ CanContinue (k ++ [.cls true]) ∧
      e.loc = some p ∧ AllPossible k e.expected) ∨
    (∃ k, Kept (STok.flatL ts) k ∧ ¬ IsProgram k ∧ e.loc = none ∧ AllPossible k e.expected) ∨
    (∃ a' b' k, STok.flatL ts = a' ++ b' ∧ Kept a' k ∧ IsProgram k ∧ ∃ a t p, FirstBad ts a t p ∧ CanContinue (a ++ [.cls true]) ∧ e.loc = some p ∧ e.expected = []) := by
  have hf := stmtS_follows sp (8 * STok.sizeL ts + 9) (σ := LState.start) (scope := none) (ts := ts) (u := none) rfl rfl
  have hs := stmtS_skims sp (8 * STok.sizeL ts + 9) (σ := LState.start) (scope := none) (ts := ts) (u := none) rfl rfl
  unfold parseSpanned at h
  revert hf hs h
  cases stmtS sp (8 * STok.sizeL ts + 9) none ts none with
  | oof => intro h; cases h
  | panic => intro h; cases h
  | err e' =>
    rintro h - hs
    cases h
    rcases hs with ⟨a, t, p, b, k, τ, h1, h2, h3, h4, h5, h6⟩ | ⟨h0, k, τ, h1, h2, h3, h4⟩
    · have hk : Kept a k := by simpa using h2.kept .nil rfl
      exact .inl ⟨a, t, p, b, k, h1, hk, fun hc => (canContinue_snoc h2.run _).1 hc h3, fun hc => (canContinue_snoc h2.run _).1 hc h4, h5,
        h6.possible h2.run⟩
    · have hk : Kept (STok.flatL ts) k := by simpa using h1.kept .nil rfl
      refine .inr (.inl ⟨k, hk, ?_, h0, h4.possible h1.run⟩)
      rw [isProgram_iff, h1.run]
      intro hc
      cases hc
      exact h3 rfl
  | ok y =>
    obtain ⟨x, r, u⟩ := y
    rintro h ⟨pre, τ, rfl, rfl, -, hf⟩ ⟨pre', k, τ', h1, rfl, h2⟩
    cases List.append_cancel_right h1
    have hk : Kept (STok.flatL pre) k := by simpa using h2.kept .nil rfl
    have hbad : ∀ {a : List (FTok × Nat)} {t p b τ}, STok.flatL (pre ++ r) = a ++ (t, p) :: b → LState.start.run (a.map (·.1)) = some τ →
        τ.step t = none → FirstBad (pre ++ r) (a.map (·.1)) t p := by
      intro a t p b τ h1 h2 h3
      exact ⟨a, b, h1, rfl, (canContinue_iff _).2 ⟨τ, h2⟩, fun hc => (canContinue_snoc h2 t).1 hc h3⟩
    cases u with
    | some q =>
      cases h
      rcases hf rfl with ⟨hc, -⟩ | ⟨s, hs, a, t, b, τ, h3, h4, h5, h6⟩
      · cases hc
      · cases hs
        exact .inr (.inr ⟨_, _, k, STok.flatL_append _ _, hk, (isProgram_iff k).2 h2.run, _, t, _,
          hbad (a := a) (b := b ++ STok.flatL r) (by rw [STok.flatL_append, h3]; simp) h4 h5, (canContinue_snoc h4 _).2 h6, rfl, rfl⟩)
    | none =>
      cases r with
      | nil => cases h
      | cons t r =>
        cases h
        obtain ⟨b, hb⟩ := t.flat_hd
        exact .inl ⟨STok.flatL pre, t.hd, t.span, b ++ STok.flatL r, k, by rw [STok.flatL_append, STok.flatL, hb]; rfl, hk,
          fun hc => (canContinue_snoc h2.run _).1 hc rfl, fun hc => (canContinue_snoc h2.run _).1 hc rfl, rfl, nofun⟩

/-- **C84** The place is never made up: it is the end of the input or that of a token, delimiters being tokens. -/
theorem C84_error_at_token (sp : List STok → Nat) (ts : List STok) (e : SynErr) (h : parseSpanned sp ts = .err e) :
    e.loc = none ∨ ∃ t p, (t, p) ∈ STok.flatL ts ∧ e.loc = some p := by
  rcases C84_error_place sp ts e h with ⟨a, t, p, b, k, h1, -, -, -, h2, -⟩ | ⟨k, -, -, h2, -⟩ | ⟨-, -, -, -, -, -, -, t, p, ⟨a', b, h1, -⟩, -, h2, -⟩
  · exact .inr ⟨t, p, by rw [h1]; simp, h2⟩
  · exact .inl h2
  · exact .inr ⟨t, p, by rw [h1]; simp, h2⟩

theorem CanContinue.prefix {w : List FTok} {w' : List FTok} (h : CanContinue (w ++ w')) : CanContinue w := by
  obtain ⟨ts, s, h1, rest, h2⟩ := h
  exact ⟨ts, s, h1, w' ++ rest, by rw [h2, List.append_assoc]⟩

theorem FirstBad.unique {ts : List STok} {a a' : List FTok} {t t' : FTok} {p p' : Nat} (h : FirstBad ts a t p) (h' : FirstBad ts a' t' p') :
    a = a' ∧ t = t' ∧ p = p' := by
  obtain ⟨x, y, h1, rfl, h2, h3⟩ := h
  obtain ⟨x', y', h1', rfl, h2', h3'⟩ := h'
  rw [h1] at h1'
  rcases List.append_eq_append_iff.1 h1' with ⟨c, hc, hd⟩ | ⟨c, hc, hd⟩
  · cases c with
    | nil =>
      simp only [List.append_nil, List.nil_append, List.cons.injEq, Prod.mk.injEq] at hc hd
      subst hc
      exact ⟨rfl, hd.1.1, hd.1.2⟩
    | cons z c =>
      rw [List.cons_append, List.cons.injEq] at hd
      obtain ⟨rfl, hd⟩ := hd
      subst hc
      rw [List.map_append, List.map_cons] at h2'
      exact absurd (CanContinue.prefix (w' := c.map (·.1)) (by simpa using h2')) h3
  · cases c with
    | nil =>
      simp only [List.append_nil, List.nil_append, List.cons.injEq, Prod.mk.injEq] at hc hd
      subst hc
      exact ⟨rfl, hd.1.1.symm, hd.1.2.symm⟩
    | cons z c =>
      rw [List.cons_append, List.cons.injEq] at hd
      obtain ⟨rfl, hd⟩ := hd
      subst hc
      rw [List.map_append, List.map_cons] at h2
      exact absurd (CanContinue.prefix (w' := c.map (·.1)) (by simpa using h2)) h3'

/-- **C84** The first token that cannot follow those before it, if it is not where parentheses could be closed, is where the error is. -/
theorem C84_first_bad_reported (sp : List STok → Nat) (ts : List STok) (a : List FTok) (t : FTok) (p : Nat) (h : FirstBad ts a t p)
    (hc : ¬ CanContinue (a ++ [.cls true])) : ∃ e, parseSpanned sp ts = .err e ∧ e.loc = some p ∧ AllPossible a e.expected := by
  cases hp : parseSpanned sp ts with
  | ok s =>
    obtain ⟨x, y, h1, rfl, h2, h3⟩ := h
    have := run_of_program ((C84_agrees sp ts s.unspan).2 ⟨s, hp, rfl⟩)
    rw [← STok.flatL_erase, h1] at this
    refine absurd ?_ h3
    refine CanContinue.prefix (w' := y.map (·.1)) ((canContinue_iff _).2 ⟨⟨true, 0, .done⟩, ?_⟩)
    simpa using this
  | err e =>
    refine ⟨e, rfl, ?_⟩
    rcases C84_error_at_first_bad sp ts e hp with ⟨-, h1, -⟩ | ⟨a', t', p', h1, h2⟩
    · obtain ⟨x, y, h3, rfl, h4, h5⟩ := h
      rw [h3] at h1
      refine absurd ?_ h5
      exact CanContinue.prefix (w' := y.map (·.1)) (by simpa using h1)
    · obtain ⟨rfl, rfl, rfl⟩ := h.unique h1
      exact h2.resolve_right hc
  | oof => exact absurd hp (C84_parser_terminates sp ts).1
  | panic => exact absurd hp (C84_parser_terminates sp ts).2

/-- **C84** Tokens that begin a program and end too early: the error is at the end. -/
theorem C84_too_short (sp : List STok → Nat) (ts : List STok) (h : CanContinue ((STok.flatL ts).map (·.1)))
    (hp : ¬ IsProgram ((STok.flatL ts).map (·.1))) : ∃ e, parseSpanned sp ts = .err e ∧ e.loc = none ∧
      AllPossible ((STok.flatL ts).map (·.1)) e.expected := by
  cases hr : parseSpanned sp ts with
  | ok s =>
    exact absurd ⟨STok.eraseL ts, _, (C84_agrees sp ts s.unspan).2 ⟨s, hr, rfl⟩, (STok.flatL_erase ts).symm⟩ hp
  | err e =>
    refine ⟨e, rfl, ?_⟩
    rcases C84_error_at_first_bad sp ts e hr with ⟨h1, -, -, h2⟩ | ⟨a', t', p', ⟨x, y, h1, rfl, -, h2⟩, -⟩
    · exact ⟨h1, h2⟩
    · rw [h1] at h
      exact absurd (CanContinue.prefix (w' := y.map (·.1)) (by simpa using h)) h2
  | oof => exact absurd hr (C84_parser_terminates sp ts).1
  | panic => exact absurd hr (C84_parser_terminates sp ts).2

end

/-! ## Examples -/

/-- `match (a /) 5;` -/
def exLeft : List STok := [.ident false "match" 1, .group true 2 [.ident false "a" 3, .punct '/' 4] 5, .other 6, .punct ';' 7]

theorem firstBad_of_run {ts : List STok} {a : List (FTok × Nat)} {t : FTok} {p : Nat} {b : List (FTok × Nat)} {τ : LState}
    (h1 : STok.flatL ts = a ++ (t, p) :: b) (h2 : LState.start.run (a.map (·.1)) = some τ) (h3 : τ.step t = none) :
    FirstBad ts (a.map (·.1)) t p :=
  ⟨a, b, h1, rfl, (canContinue_iff _).2 ⟨τ, h2⟩, fun hc => (canContinue_snoc h2 t).1 hc h3⟩

/-- Not every error is at the first token that cannot follow: in `match (a /) 5;` that is `/`, but the error is at `5`. -/
theorem C84_left_over_masked (sp : List STok → Nat) : (∃ a t, FirstBad exLeft a t 4) ∧
    parseSpanned sp exLeft = .err ⟨some 6, [.punct ';'], some 4⟩ :=
  ⟨⟨_, _, firstBad_of_run (a := [(.ident false "match", 1), (.opn true, 2), (.ident false "a", 3)]) (t := .punct '/') (p := 4)
    (b := [(.cls true, 5), (.other, 6), (.punct ';', 7)]) (τ := ⟨true, 1, .after⟩) rfl rfl rfl⟩, rfl⟩

/-- The list of what was expected need not be complete: `match a` is said to lack a semicolon, but a bar, a dot, a colon or an argument may
follow as well. -/
theorem C84_expected_incomplete (sp : List STok → Nat) :
    parseSpanned sp [.ident false "match" 1, .ident false "a" 2] = .err ⟨none, [.punct ';'], none⟩ ∧
    ∀ t ∈ [FTok.punct ';', .punct '|', .punct '.', .punct ':', .str ['b'], .opn true],
      CanContinue [.ident false "match", .ident false "a", t] := by
  refine ⟨rfl, fun t ht => ?_⟩
  rw [canContinue_iff]
  simp only [List.mem_cons, List.not_mem_nil, or_false] at ht
  rcases ht with rfl | rfl | rfl | rfl | rfl | rfl <;> exact ⟨_, rfl⟩

/-- `match (a /);`: now it is reported. -/
example (sp : List STok → Nat) : parseSpanned sp [.ident false "match" 1, .group true 2 [.ident false "a" 3, .punct '/' 4] 5, .punct ';' 6] =
    .err ⟨some 4, [], some 4⟩ := rfl
/-- `match a` -/
example (sp : List STok → Nat) : parseSpanned sp [.ident false "match" 1, .ident false "a" 2] = .err ⟨none, [.punct ';'], none⟩ := rfl
/-- `match a . ;` -/
example (sp : List STok → Nat) : parseSpanned sp [.ident false "match" 1, .ident false "a" 2, .punct '.' 3, .punct ';' 4] =
    .err ⟨some 4, [.word "_", .str, .punct '!', .paren, .ident], none⟩ := rfl
/-- `match ();` is an error at the closing delimiter. -/
example (sp : List STok → Nat) : parseSpanned sp [.ident false "match" 1, .group true 2 [] 3, .punct ';' 4] =
    .err ⟨some 3, [.word "_", .str, .punct '!', .paren, .ident], none⟩ := rfl
/-- `match /x y 5/ x;` -/
example (sp : List STok → Nat) : parseSpanned sp [.ident false "match" 1, .punct '/' 2, .ident false "x" 3, .ident false "y" 4, .other 5] =
    .err ⟨some 5, [.punct '/', .ident], none⟩ := rfl
/-- The hypotheses of `C84_first_bad_reported`: `match a . ;`. -/
example : ∃ a t p, FirstBad [.ident false "match" 1, .ident false "a" 2, .punct '.' 3, .punct ';' 4] a t p ∧ ¬ CanContinue (a ++ [.cls true]) := by
  refine ⟨_, _, _, firstBad_of_run (a := [(.ident false "match", 1), (.ident false "a", 2), (.punct '.', 3)]) (t := .punct ';') (p := 4)
    (b := []) (τ := ⟨true, 0, .term⟩) rfl rfl rfl, ?_⟩
  rw [canContinue_snoc (τ := ⟨true, 0, .term⟩) rfl]
  exact fun h => h rfl
/-- The hypotheses of `C84_too_short`: `match a`. -/
example : CanContinue [.ident false "match", .ident false "a"] ∧ ¬ IsProgram [.ident false "match", .ident false "a"] :=
  ⟨(canContinue_iff _).2 ⟨_, rfl⟩, by rw [isProgram_iff]; decide⟩

end Chomp
