import Verif.Nibble.ScanSim

/-! # The parser with places agrees with the one without, and ends -/

namespace Chomp

/-- Without places. -/
def Ident.unspan (i : Ident) : Ident := { i with span := 0 }

mutual
def Term.unspan : Term → Term
  | .eps _ => .eps 0
  | .ident i => .ident i.unspan
  | .lit _ s => .lit 0 s
  | .fix _ t => .fix 0 t.unspan
  | .parens e => .parens e.unspan
def Call.unspan : Call → Call
  | .mk _ l => .mk 0 (Term.unspanL l)
def Term.unspanL : List Term → List Term
  | [] => []
  | t :: l => t.unspan :: Term.unspanL l
def Cat.unspan : Cat → Cat
  | .mk _ l => .mk 0 (Call.unspanL l)
def Call.unspanL : List (Call × Nat) → List (Call × Nat)
  | [] => []
  | (x, _) :: l => (x.unspan, 0) :: Call.unspanL l
def Labelled.unspan : Labelled → Labelled
  | .mk _ c l => .mk 0 c.unspan (l.map Ident.unspan)
def Alt.unspan : Alt → Alt
  | .mk _ l => .mk 0 (Labelled.unspanL l)
def Labelled.unspanL : List (Labelled × Nat) → List (Labelled × Nat)
  | [] => []
  | (x, _) :: l => (x.unspan, 0) :: Labelled.unspanL l
def Expr.unspan : Expr → Expr
  | .alt a => .alt a.unspan
  | .lam _ args b => .lam 0 (args.map Ident.unspan) b.unspan
end
def Stmt.unspan : Stmt → Stmt
  | .goal _ e => .goal 0 e.unspan
  | .letS _ x args e next => .letS 0 x.unspan (args.map Ident.unspan) e.unspan next.unspan

section
variable [Reserved]

/-! ## Agreement -/

/-- Results of the two parsers when nothing has been left over before. -/
def SameRes {α β : Type} (f : α → β) : SR α → PR β → Prop
  | .ok (x, r, u), .ok (x0, r0) => u = none ∧ f x = x0 ∧ STok.eraseL r = r0
  | .ok (_, _, u), .err _ => u ≠ none
  | .err _, .err _ => True
  | .oof, .oof => True
  | .oof, .err _ => True
  | _, _ => False

/-- What has been left over stays. -/
def KeepsRes {β : Type} (x : SR β) (p : Nat) : Prop :=
  match x with | .ok (_, _, u) => u = some p | .panic => False | _ => True

def KeepsLeft {α β : Type} (f : α × List STok × Option Nat → SR β) : Prop := ∀ x r p, KeepsRes (f (x, r, some p)) p

theorem SameRes.bind {α α' β β' : Type} {fa : α → α'} {fb : β → β'} {x : SR α} {y : PR α'} {f : α × List STok × Option Nat → SR β}
    {g : α' × List Tok → PR β'} (h : SameRes fa x y) (hk : KeepsLeft f) (hf : ∀ a r, SameRes fb (f (a, r, none)) (g (fa a, STok.eraseL r))) :
    SameRes fb (x.bind f) (y.bind g) := by
  match x, y, h with
  | .ok (a, r, u), .ok (a0, r0), ⟨h1, h2, h3⟩ =>
    subst h1 h2 h3
    exact hf a r
  | .ok (a, r, some p), .err _, _ =>
    have := hk a r p
    show SameRes fb (f (a, r, some p)) (.err _)
    revert this
    cases f (a, r, some p) with
    | ok z => intro h; obtain ⟨b, r', u⟩ := z; exact (by rw [show u = some p from h]; simp : u ≠ none)
    | err => intro; trivial
    | oof => intro; trivial
    | panic => intro h; exact h
  | .err _, .err _, _ => trivial
  | .oof, .oof, _ => trivial
  | .oof, .err _, _ => trivial

theorem KeepsRes.bind {β γ : Type} {x : SR β} {p : Nat} {g : β × List STok × Option Nat → SR γ} (h : KeepsRes x p)
    (hg : ∀ b r, KeepsRes (g (b, r, some p)) p) : KeepsRes (x.bind g) p := by
  match x, h with
  | .ok (b, r, u), h => have h : u = some p := h; subst h; exact hg b r
  | .err _, _ => trivial
  | .oof, _ => trivial

theorem KeepsLeft.bind {α β γ : Type} {f : α × List STok × Option Nat → SR β} {g : α × List STok × Option Nat → β × List STok × Option Nat → SR γ}
    (hf : KeepsLeft f) (hg : ∀ y, KeepsLeft (g y)) : KeepsLeft fun y => (f y).bind (g y) := by
  intro x r p
  have h1 := hf x r p
  show KeepsRes ((f (x, r, some p)).bind (g (x, r, some p))) p
  revert h1
  cases f (x, r, some p) with
  | ok z => intro h; obtain ⟨b, r', u⟩ := z; have h : u = some p := h; subst h; exact hg _ b r' p
  | err => intro; trivial
  | oof => intro; trivial
  | panic => intro h; exact h

theorem KeepsLeft.of_follows {α β : Type} {f : α × List STok × Option Nat → SR β}
    (h : ∀ x r p, ∃ σ sc Q, ParsesBy σ sc r (some p) Q (f (x, r, some p))) : KeepsLeft f := by
  intro x r p
  obtain ⟨σ, sc, Q, h⟩ := h x r p
  revert h
  cases f (x, r, some p) with
  | ok z => obtain ⟨b, r', u⟩ := z; rintro ⟨_, _, _, _, h, _⟩; exact h (by simp)
  | err => intro; trivial
  | oof => intro; trivial
  | panic => intro h; exact h

theorem KeepsLeft.ok {α β : Type} {f : α × List STok × Option Nat → β} {g : α × List STok × Option Nat → List STok} :
    KeepsLeft (fun y => (.ok (f y, g y, y.2.2) : SR β)) := fun _ _ _ => rfl

theorem KeepsLeft.err {α β : Type} {sc : Option Nat} {l : List Expect} :
    KeepsLeft (fun y : α × List STok × Option Nat => (synErr sc y.2.1 y.2.2 l : SR β)) := fun _ _ _ => trivial

theorem KeepsLeft.ite {α β : Type} {c : α × List STok × Option Nat → Bool} {f g : α × List STok × Option Nat → SR β} (hf : KeepsLeft f) (hg : KeepsLeft g) :
    KeepsLeft (fun y => if c y then f y else g y) := by
  intro x r p
  cases h : c (x, r, some p) with
  | true => show KeepsRes (if c (x, r, some p) then f (x, r, some p) else g (x, r, some p)) p
            rw [h]; exact hf x r p
  | false => show KeepsRes (if c (x, r, some p) then f (x, r, some p) else g (x, r, some p)) p
             rw [h]; exact hg x r p

theorem KeepsLeft.identS {α : Type} {sc : Option Nat} : KeepsLeft (fun y : α × List STok × Option Nat => Chomp.identS sc y.2.1 y.2.2) := by
  intro x r p
  simp only [Chomp.identS]
  split
  · split
    · exact rfl
    · trivial
  · trivial

theorem KeepsLeft.anyIdentS {α : Type} {sc : Option Nat} {g : α × List STok × Option Nat → List STok} :
    KeepsLeft (fun y : α × List STok × Option Nat => Chomp.anyIdentS sc (g y) y.2.2) := by
  intro x r p
  simp only [Chomp.anyIdentS]
  split
  · exact rfl
  · trivial

theorem KeepsLeft.punctS {α : Type} {c : Char} {sc : Option Nat} : KeepsLeft (fun y : α × List STok × Option Nat => Chomp.punctS c sc y.2.1 y.2.2) := by
  intro x r p
  simp only [Chomp.punctS]
  split
  · split
    · exact rfl
    · trivial
  · trivial

theorem KeepsLeft.lamArgsS {α : Type} {n : Nat} {sc : Option Nat} : KeepsLeft (fun y : α × List STok × Option Nat => Chomp.lamArgsS n sc y.2.1 y.2.2) :=
  .of_follows fun _ _ _ => ⟨⟨false, 0, .lam0⟩, sc, _, lamArgsS_follows n (.inl rfl)⟩

theorem KeepsLeft.letArgsS {α : Type} {n : Nat} {sc : Option Nat} : KeepsLeft (fun y : α × List STok × Option Nat => Chomp.letArgsS n sc y.2.1 y.2.2) :=
  .of_follows fun _ _ _ => ⟨⟨false, 0, .letArgs⟩, sc, _, letArgsS_follows n rfl⟩

variable {sp : List STok → Nat}

theorem KeepsLeft.termS {α : Type} {n : Nat} {sc : Option Nat} : KeepsLeft (fun y : α × List STok × Option Nat => Chomp.termS sp n sc y.2.1 y.2.2) :=
  .of_follows fun _ _ _ => ⟨⟨false, 0, .term⟩, sc, _, (expr_follows sp n).term (.inl rfl)⟩

theorem KeepsLeft.termsS {α : Type} {n : Nat} {sc : Option Nat} : KeepsLeft (fun y : α × List STok × Option Nat => Chomp.termsS sp n sc y.2.1 y.2.2) :=
  .of_follows fun _ _ _ => ⟨⟨false, 0, .after⟩, sc, _, (expr_follows sp n).terms rfl⟩

theorem KeepsLeft.catItemsS {α : Type} {n : Nat} {sc : Option Nat} {g : α × List STok × Option Nat → List STok} :
    KeepsLeft (fun y : α × List STok × Option Nat => Chomp.catItemsS sp n sc (g y) y.2.2) := by
  intro x r p
  exact KeepsLeft.of_follows (f := fun y : α × List STok × Option Nat => Chomp.catItemsS sp n sc y.2.1 y.2.2)
    (fun _ _ _ => ⟨⟨false, 0, .term⟩, sc, _, (expr_follows sp n).cat (.inl rfl)⟩) x (g (x, r, some p)) p

theorem KeepsLeft.altItemsS {α : Type} {n : Nat} {sc : Option Nat} {g : α × List STok × Option Nat → List STok} :
    KeepsLeft (fun y : α × List STok × Option Nat => Chomp.altItemsS sp n sc (g y) y.2.2) := by
  intro x r p
  exact KeepsLeft.of_follows (f := fun y : α × List STok × Option Nat => Chomp.altItemsS sp n sc y.2.1 y.2.2)
    (fun _ _ _ => ⟨⟨false, 0, .term⟩, sc, _, (expr_follows sp n).alt (.inl rfl)⟩) x (g (x, r, some p)) p

theorem KeepsLeft.exprS {α : Type} {n : Nat} {sc : Option Nat} : KeepsLeft (fun y : α × List STok × Option Nat => Chomp.exprS sp n sc y.2.1 y.2.2) :=
  .of_follows fun _ _ _ => ⟨⟨false, 0, .expr⟩, sc, _, (expr_follows sp n).expr rfl⟩

theorem KeepsLeft.stmtS {α : Type} {n : Nat} {sc : Option Nat} : KeepsLeft (fun y : α × List STok × Option Nat => Chomp.stmtS sp n sc y.2.1 y.2.2) :=
  .of_follows fun _ _ _ => ⟨⟨false, 0, .stmt⟩, sc, _, stmtS_follows sp n rfl rfl⟩

theorem identS_agree (sc : Option Nat) (ts : List STok) : SameRes Ident.unspan (identS sc ts none) (parseIdent (STok.eraseL ts)) := by
  unfold identS
  split
  · rename_i raw sym s r
    simp only [STok.eraseL, STok.erase, parseIdent]
    split
    · exact ⟨rfl, rfl, rfl⟩
    · trivial
  · rename_i hne
    cases ts with
    | nil => trivial
    | cons t r => cases t <;> first | trivial | exact absurd rfl (hne _ _ _ _)

theorem anyIdentS_agree (sc : Option Nat) (ts : List STok) : SameRes Ident.unspan (anyIdentS sc ts none) (parseAnyIdent (STok.eraseL ts)) := by
  unfold anyIdentS
  split
  · exact ⟨rfl, rfl, rfl⟩
  · rename_i hne
    cases ts with
    | nil => trivial
    | cons t r => cases t <;> first | trivial | exact absurd rfl (hne _ _ _ _)

theorem punctS_agree (c : Char) (sc : Option Nat) (ts : List STok) :
    SameRes (fun _ => ()) (punctS c sc ts none) (parsePunct c (STok.eraseL ts)) := by
  unfold punctS
  split
  · simp only [STok.eraseL, STok.erase, parsePunct]
    split
    · exact ⟨rfl, rfl, rfl⟩
    · trivial
  · rename_i hne
    cases ts with
    | nil => trivial
    | cons t r => cases t <;> first | trivial | exact absurd rfl (hne _ _ _)

theorem peekIdentS_erase (ts : List STok) : peekIdent (STok.eraseL ts) = peekIdentS ts := by
  cases ts with
  | nil => rfl
  | cons t r => cases t <;> rfl

theorem peekPunctS_erase (c : Char) (ts : List STok) : peekPunct c (STok.eraseL ts) = peekPunctS c ts := by
  cases ts with
  | nil => rfl
  | cons t r => cases t <;> rfl

theorem peekTermS_erase (ts : List STok) : peekTerm (STok.eraseL ts) = peekTermS ts := by
  cases ts with
  | nil => rfl
  | cons t r => cases t <;> rfl

theorem lamArgsS_agree : ∀ (n : Nat) (sc : Option Nat) (ts : List STok),
    SameRes (List.map Ident.unspan) (lamArgsS n sc ts none) (parseLamArgs n (STok.eraseL ts))
  | 0, _, _ => trivial
  | n + 1, sc, ts => by
    simp only [lamArgsS, parseLamArgs]
    refine (identS_agree sc ts).bind (.ite .ok (.ite (.bind .lamArgsS fun _ => .ok) .err)) ?_
    intro i r
    dsimp only
    rw [peekPunctS_erase, peekIdentS_erase]
    split
    · exact ⟨rfl, rfl, rfl⟩
    · split
      · exact (lamArgsS_agree n sc r).bind .ok fun l r => ⟨rfl, rfl, rfl⟩
      · trivial

theorem letArgsS_agree : ∀ (n : Nat) (sc : Option Nat) (ts : List STok),
    SameRes (List.map Ident.unspan) (letArgsS n sc ts none) (parseLetArgs n (STok.eraseL ts))
  | 0, _, _ => trivial
  | n + 1, sc, ts => by
    simp only [letArgsS, parseLetArgs]
    rw [peekPunctS_erase, peekIdentS_erase]
    split
    · exact ⟨rfl, rfl, rfl⟩
    · split
      · refine (identS_agree sc ts).bind (.bind .letArgsS fun _ => .ok) ?_
        intro i r
        exact (letArgsS_agree n sc r).bind .ok fun l r => ⟨rfl, rfl, rfl⟩
      · trivial

structure ExprSame (sp : List STok → Nat) (n : Nat) : Prop where
  term : ∀ sc ts, SameRes Term.unspan (termS sp n sc ts none) (parseTerm n (STok.eraseL ts))
  terms : ∀ sc ts, SameRes Term.unspanL (termsS sp n sc ts none) (parseTerms n (STok.eraseL ts))
  call : ∀ sc ts, SameRes Call.unspan (callS sp n sc ts none) (parseCall n (STok.eraseL ts))
  cat : ∀ sc ts, SameRes Call.unspanL (catItemsS sp n sc ts none) (parseCatItems n (STok.eraseL ts))
  labelled : ∀ sc ts, SameRes Labelled.unspan (labelledS sp n sc ts none) (parseLabelled n (STok.eraseL ts))
  alt : ∀ sc ts, SameRes Labelled.unspanL (altItemsS sp n sc ts none) (parseAltItems n (STok.eraseL ts))
  expr : ∀ sc ts, SameRes Expr.unspan (exprS sp n sc ts none) (parseExpr n (STok.eraseL ts))

theorem parseTerm_ident (n : Nat) (raw : Bool) (sym : String) (r : List Tok) (h : ¬ (raw = false ∧ sym = "_")) :
    parseTerm (n + 1) (.ident raw sym :: r) = .ok (.ident ⟨raw, sym, 0⟩, r) := by
  simp only [parseTerm]
  split
  · rename_i h1; cases h1; exact absurd ⟨rfl, rfl⟩ h
  · rename_i h1; cases h1
  · rename_i h1; cases h1
  · rename_i h1; cases h1
  · rename_i h1; cases h1; rfl
  · rename_i h5; exact absurd rfl (h5 _ _ _)

theorem expr_agree (sp : List STok → Nat) : ∀ n, ExprSame sp n
  | 0 => by
    constructor <;> (intros; simp only [termS, termsS, callS, catItemsS, labelledS, altItemsS, exprS, parseTerm, parseTerms, parseCall,
      parseCatItems, parseLabelled, parseAltItems, parseExpr]; trivial)
  | n + 1 => by
    have ih := expr_agree sp n
    constructor
    · intro sc ts
      simp only [termS]
      split
      · simp only [STok.eraseL, STok.erase, parseTerm]; exact ⟨rfl, rfl, rfl⟩
      · simp only [STok.eraseL, STok.erase, parseTerm]; exact ⟨rfl, rfl, rfl⟩
      · simp only [STok.eraseL, STok.erase, parseTerm]
        exact (ih.term sc _).bind .ok fun _ _ => ⟨rfl, rfl, rfl⟩
      · simp only [STok.eraseL, STok.erase, parseTerm]
        refine (ih.expr _ _).bind ?_ ?_
        · intro x l' p
          cases l' <;> exact rfl
        · intro e l'
          cases l' with
          | nil => exact ⟨rfl, rfl, rfl⟩
          | cons t l' => simp [SameRes, dropBuffer, STok.eraseL]
      · rename_i raw sym s r h
        simp only [STok.eraseL, STok.erase]
        rw [parseTerm_ident n raw sym _ (by rintro ⟨rfl, rfl⟩; exact h rfl rfl)]
        exact ⟨rfl, rfl, rfl⟩
      · rename_i h1 h2 h3 h4 h5
        cases ts with
        | nil => simp only [STok.eraseL, parseTerm]; trivial
        | cons t r =>
          simp only [STok.eraseL, parseTerm]
          cases t <;> simp only [STok.erase]
          · exact absurd rfl (h5 _ _ _ _)
          · split
            · rename_i h; cases h
            · rename_i h; cases h
            · rename_i h; cases h; exact absurd rfl (h3 _ _)
            · rename_i h; cases h
            · rename_i h; cases h
            · trivial
          · exact absurd rfl (h2 _ _ _)
          · trivial
          · split
            · rename_i h; cases h
            · rename_i h; cases h
            · rename_i h; cases h
            · rename_i h; cases h; exact absurd rfl (h4 _ _ _ _)
            · rename_i h; cases h
            · trivial
    · intro sc ts
      simp only [termsS, parseTerms]
      rw [peekTermS_erase]
      split
      · refine (ih.term sc ts).bind (.bind .termsS fun _ => .ok) ?_
        intro t r
        exact (ih.terms sc r).bind .ok fun _ _ => ⟨rfl, rfl, rfl⟩
      · exact ⟨rfl, rfl, rfl⟩
    · intro sc ts
      simp only [callS, parseCall]
      refine (ih.term sc ts).bind (.bind .termsS fun _ => .ok) ?_
      intro t r
      exact (ih.terms sc r).bind .ok fun _ _ => ⟨rfl, rfl, rfl⟩
    · intro sc ts
      simp only [catItemsS, parseCatItems]
      refine (ih.call sc ts).bind ?_ ?_
      · intro x r p
        dsimp only
        split
        · rename_i r'
          exact KeepsRes.bind (KeepsLeft.catItemsS (sp := sp) (n := n) (sc := sc) (g := fun y : Call × List STok × Option Nat => y.2.1) x r' p)
            fun _ _ => rfl
        · exact rfl
      · intro x r
        dsimp only
        split
        · simp only [STok.eraseL, STok.erase]
          exact (ih.cat sc _).bind .ok fun _ _ => ⟨rfl, rfl, rfl⟩
        · rename_i hne
          split
          · rename_i h
            cases r with
            | nil => cases h
            | cons t r =>
              cases t <;> simp only [STok.eraseL, STok.erase, List.cons.injEq, reduceCtorEq, false_and, Tok.punct.injEq] at h
              obtain ⟨rfl, -⟩ := h
              exact absurd rfl (hne _ _)
          · exact ⟨rfl, rfl, rfl⟩
    · intro sc ts
      simp only [labelledS, parseLabelled]
      refine (ih.cat sc ts).bind ?_ ?_
      · intro x r p
        dsimp only
        split
        · rename_i s r'
          exact KeepsRes.bind (KeepsLeft.anyIdentS (sc := sc) (g := fun y : List (Call × Nat) × List STok × Option Nat => y.2.1) x r' p)
            fun _ _ => rfl
        · exact rfl
      · intro x r
        dsimp only
        split
        · simp only [STok.eraseL, STok.erase]
          exact (anyIdentS_agree sc _).bind .ok fun _ _ => ⟨rfl, rfl, rfl⟩
        · rename_i hne
          split
          · rename_i h
            cases r with
            | nil => cases h
            | cons t r =>
              cases t <;> simp only [STok.eraseL, STok.erase, List.cons.injEq, reduceCtorEq, false_and, Tok.punct.injEq] at h
              obtain ⟨rfl, -⟩ := h
              exact absurd rfl (hne _ _)
          · exact ⟨rfl, rfl, rfl⟩
    · intro sc ts
      simp only [altItemsS, parseAltItems]
      refine (ih.labelled sc ts).bind ?_ ?_
      · intro x r p
        dsimp only
        split
        · rename_i r'
          exact KeepsRes.bind (KeepsLeft.altItemsS (sp := sp) (n := n) (sc := sc) (g := fun y : Labelled × List STok × Option Nat => y.2.1) x r' p)
            fun _ _ => rfl
        · exact rfl
      · intro x r
        dsimp only
        split
        · simp only [STok.eraseL, STok.erase]
          exact (ih.alt sc _).bind .ok fun _ _ => ⟨rfl, rfl, rfl⟩
        · rename_i hne
          split
          · rename_i h
            cases r with
            | nil => cases h
            | cons t r =>
              cases t <;> simp only [STok.eraseL, STok.erase, List.cons.injEq, reduceCtorEq, false_and, Tok.punct.injEq] at h
              obtain ⟨rfl, -⟩ := h
              exact absurd rfl (hne _ _)
          · exact ⟨rfl, rfl, rfl⟩
    · intro sc ts
      simp only [exprS, parseExpr]
      split
      · simp only [STok.eraseL, STok.erase]
        refine (lamArgsS_agree n sc _).bind (.bind .punctS fun _ => .bind .altItemsS fun _ => .ok) ?_
        intro args r
        refine (punctS_agree '/' sc r).bind (.bind .altItemsS fun _ => .ok) ?_
        intro _ r
        exact (ih.alt sc r).bind .ok fun _ _ => ⟨rfl, rfl, rfl⟩
      · rename_i hne
        split
        · rename_i h
          cases ts with
          | nil => cases h
          | cons t r =>
            cases t <;> simp only [STok.eraseL, STok.erase, List.cons.injEq, reduceCtorEq, false_and, Tok.punct.injEq] at h
            obtain ⟨rfl, -⟩ := h
            exact absurd rfl (hne _ _)
        · exact (ih.alt sc ts).bind .ok fun _ _ => ⟨rfl, rfl, rfl⟩

theorem stmtS_agree (sp : List STok → Nat) : ∀ (n : Nat) (sc : Option Nat) (ts : List STok),
    SameRes Stmt.unspan (stmtS sp n sc ts none) (parseStmt n (STok.eraseL ts))
  | 0, _, _ => trivial
  | n + 1, sc, ts => by
    simp only [stmtS, parseStmt]
    split
    · simp only [STok.eraseL, STok.erase]
      refine (anyIdentS_agree sc _).bind (.bind .letArgsS fun _ => .bind .punctS fun _ => .bind .exprS fun _ => .bind .punctS fun _ =>
        .bind .stmtS fun _ => .ok) ?_
      intro x r
      refine (letArgsS_agree n sc r).bind (.bind .punctS fun _ => .bind .exprS fun _ => .bind .punctS fun _ => .bind .stmtS fun _ => .ok) ?_
      intro args r
      refine (punctS_agree '=' sc r).bind (.bind .exprS fun _ => .bind .punctS fun _ => .bind .stmtS fun _ => .ok) ?_
      intro _ r
      refine ((expr_agree sp n).expr sc r).bind (.bind .punctS fun _ => .bind .stmtS fun _ => .ok) ?_
      intro e r
      refine (punctS_agree ';' sc r).bind (.bind .stmtS fun _ => .ok) ?_
      intro _ r
      exact (stmtS_agree sp n sc r).bind .ok fun _ _ => ⟨rfl, rfl, rfl⟩
    · simp only [STok.eraseL, STok.erase]
      refine ((expr_agree sp n).expr sc _).bind (.bind .punctS fun _ => .ok) ?_
      intro e r
      exact (punctS_agree ';' sc r).bind .ok fun _ _ => ⟨rfl, rfl, rfl⟩
    · rename_i h1 h2
      have : parseStmt (n + 1) (STok.eraseL ts) = .err () := by
        simp only [parseStmt]
        split
        · rename_i h
          cases ts with
          | nil => cases h
          | cons t r =>
            cases t <;> simp only [STok.eraseL, STok.erase, List.cons.injEq, reduceCtorEq, false_and, Tok.ident.injEq] at h
            obtain ⟨⟨rfl, rfl⟩, -⟩ := h
            exact absurd rfl (h1 _ _)
        · rename_i h
          cases ts with
          | nil => cases h
          | cons t r =>
            cases t <;> simp only [STok.eraseL, STok.erase, List.cons.injEq, reduceCtorEq, false_and, Tok.ident.injEq] at h
            obtain ⟨⟨rfl, rfl⟩, -⟩ := h
            exact absurd rfl (h2 _ _)
        · rfl
      simp only [parseStmt] at this
      rw [this]
      trivial

/-! ## Termination -/

theorem STok.size_erase_aux : (∀ t : STok, t.size = t.erase.size) ∧ (∀ l : List STok, STok.sizeL l = Tok.sizeL (STok.eraseL l)) := by
  refine ⟨fun t => STok.rec (motive_1 := fun t => t.size = t.erase.size) (motive_2 := fun l => STok.sizeL l = Tok.sizeL (STok.eraseL l))
    ?_ ?_ ?_ ?_ ?_ ?_ ?_ t, fun l => STok.rec_1 (motive_1 := fun t => t.size = t.erase.size) (motive_2 := fun l => STok.sizeL l = Tok.sizeL (STok.eraseL l))
    ?_ ?_ ?_ ?_ ?_ ?_ ?_ l⟩ <;> intros <;> simp_all [STok.size, STok.sizeL, STok.erase, STok.eraseL, Tok.size, Tok.sizeL]

theorem STok.sizeL_erase (l : List STok) : STok.sizeL l = Tok.sizeL (STok.eraseL l) := STok.size_erase_aux.2 l

theorem STok.size_pos (t : STok) : 1 ≤ t.size := by cases t <;> simp [STok.size]

/-- The parser ends and has consumed at least `k` tokens. -/
def SEnds {α : Type} (ts : List STok) (k : Nat) : SR α → Prop
  | .ok (_, r, _) => STok.sizeL r + k ≤ STok.sizeL ts
  | .oof => False
  | _ => True

theorem SEnds.bind {α β : Type} {ts : List STok} {k m : Nat} {x : SR α} {f : α × List STok × Option Nat → SR β} (h : SEnds ts k x)
    (hf : ∀ a r u, STok.sizeL r + k ≤ STok.sizeL ts → SEnds ts m (f (a, r, u))) : SEnds ts m (x.bind f) := by
  match x, h with
  | .ok (a, r, u), h => exact hf a r u h
  | .err _, _ => trivial
  | .panic, _ => trivial

theorem SEnds.le {α : Type} {ts r : List STok} {k m : Nat} {x : SR α} (h : SEnds r k x) (hr : STok.sizeL r + m ≤ STok.sizeL ts + k) : SEnds ts m x := by
  match x, h with
  | .ok (a, r, u), h => simp only [SEnds] at h ⊢; omega
  | .err _, _ => trivial
  | .panic, _ => trivial

theorem SEnds.ident (sc : Option Nat) (ts : List STok) (u : Option Nat) : SEnds ts 1 (identS sc ts u) := by
  unfold identS
  split
  · split
    · simp only [SEnds, STok.sizeL, STok.size]; omega
    · trivial
  · trivial

theorem SEnds.anyIdent (sc : Option Nat) (ts : List STok) (u : Option Nat) : SEnds ts 1 (anyIdentS sc ts u) := by
  unfold anyIdentS
  split
  · simp only [SEnds, STok.sizeL, STok.size]; omega
  · trivial

theorem SEnds.punct (c : Char) (sc : Option Nat) (ts : List STok) (u : Option Nat) : SEnds ts 1 (punctS c sc ts u) := by
  unfold punctS
  split
  · split
    · simp only [SEnds, STok.sizeL, STok.size]; omega
    · trivial
  · trivial

theorem SEnds.lamArgs : ∀ (n : Nat) (sc : Option Nat) (ts : List STok) (u : Option Nat), STok.sizeL ts < n → SEnds ts 1 (lamArgsS n sc ts u)
  | 0, _, _, _, h => by omega
  | n + 1, sc, ts, u, h => by
    simp only [lamArgsS]
    refine (SEnds.ident sc ts u).bind fun i r u hr => ?_
    dsimp only
    split
    · simp only [SEnds]; omega
    · split
      · refine SEnds.bind (k := 1) ((SEnds.lamArgs n sc r u (by omega)).le (by omega)) fun l r u hr' => ?_
        simp only [SEnds]; omega
      · trivial

theorem SEnds.letArgs : ∀ (n : Nat) (sc : Option Nat) (ts : List STok) (u : Option Nat), STok.sizeL ts < n → SEnds ts 0 (letArgsS n sc ts u)
  | 0, _, _, _, h => by omega
  | n + 1, sc, ts, u, h => by
    simp only [letArgsS]
    split
    · simp only [SEnds]; omega
    · split
      · refine (SEnds.ident sc ts u).bind fun i r u hr => ?_
        refine SEnds.bind (k := 0) ((SEnds.letArgs n sc r u (by first | omega | (dsimp only; omega))).le (by first | omega | (dsimp only; omega))) fun l r u hr' => ?_
        simp only [SEnds]; omega
      · trivial

structure ExprEnds (sp : List STok → Nat) (n : Nat) : Prop where
  term : ∀ sc ts u, 8 * STok.sizeL ts + 1 ≤ n → SEnds ts 1 (termS sp n sc ts u)
  terms : ∀ sc ts u, 8 * STok.sizeL ts + 2 ≤ n → SEnds ts 0 (termsS sp n sc ts u)
  call : ∀ sc ts u, 8 * STok.sizeL ts + 3 ≤ n → SEnds ts 1 (callS sp n sc ts u)
  cat : ∀ sc ts u, 8 * STok.sizeL ts + 4 ≤ n → SEnds ts 1 (catItemsS sp n sc ts u)
  labelled : ∀ sc ts u, 8 * STok.sizeL ts + 5 ≤ n → SEnds ts 1 (labelledS sp n sc ts u)
  alt : ∀ sc ts u, 8 * STok.sizeL ts + 6 ≤ n → SEnds ts 1 (altItemsS sp n sc ts u)
  expr : ∀ sc ts u, 8 * STok.sizeL ts + 7 ≤ n → SEnds ts 1 (exprS sp n sc ts u)

theorem expr_ends (sp : List STok → Nat) : ∀ n, ExprEnds sp n
  | 0 => by constructor <;> (intro sc ts u h; omega)
  | n + 1 => by
    have ih := expr_ends sp n
    constructor
    · intro sc ts u h
      simp only [termS]
      split
      · simp only [SEnds, STok.sizeL, STok.size]; omega
      · simp only [SEnds, STok.sizeL, STok.size]; omega
      · simp only [STok.sizeL, STok.size] at h
        refine SEnds.bind (k := 2) ((ih.term sc _ u (by omega)).le (by simp only [STok.sizeL, STok.size]; omega)) fun t r u hr => ?_
        simp only [SEnds]; omega
      · simp only [STok.sizeL, STok.size] at h
        have := ih.expr (some ‹Nat›) ‹List STok› u
        refine SEnds.bind (k := 0) ((ih.expr _ _ u (by omega)).le (by simp only [STok.sizeL, STok.size]; omega)) fun e l' u hr => ?_
        simp only [SEnds, STok.sizeL, STok.size]; omega
      · simp only [SEnds, STok.sizeL, STok.size]; omega
      · trivial
    · intro sc ts u h
      simp only [termsS]
      split
      · refine (ih.term sc ts u (by omega)).bind fun t r u hr => ?_
        refine SEnds.bind (k := 0) ((ih.terms sc r u (by first | omega | (dsimp only; omega))).le (by first | omega | (dsimp only; omega))) fun l r u hr' => ?_
        simp only [SEnds]; omega
      · simp only [SEnds]; omega
    · intro sc ts u h
      simp only [callS]
      refine (ih.term sc ts u (by omega)).bind fun t r u hr => ?_
      refine SEnds.bind (k := 1) ((ih.terms sc r u (by first | omega | (dsimp only; omega))).le (by first | omega | (dsimp only; omega))) fun l r u hr' => ?_
      simp only [SEnds]; omega
    · intro sc ts u h
      simp only [catItemsS]
      refine (ih.call sc ts u (by omega)).bind fun x r u hr => ?_
      dsimp only
      split
      · simp only [STok.sizeL, STok.size] at hr
        refine SEnds.bind (k := 1) ((ih.cat sc _ u (by omega)).le (by omega)) fun l r u hr' => ?_
        simp only [SEnds]; omega
      · simp only [SEnds]; omega
    · intro sc ts u h
      simp only [labelledS]
      refine (ih.cat sc ts u (by omega)).bind fun x r u hr => ?_
      dsimp only
      split
      · simp only [STok.sizeL, STok.size] at hr
        refine SEnds.bind (k := 1) ((SEnds.anyIdent sc _ u).le (by omega)) fun l r u hr' => ?_
        simp only [SEnds]; omega
      · simp only [SEnds]; omega
    · intro sc ts u h
      simp only [altItemsS]
      refine (ih.labelled sc ts u (by omega)).bind fun x r u hr => ?_
      dsimp only
      split
      · simp only [STok.sizeL, STok.size] at hr
        refine SEnds.bind (k := 1) ((ih.alt sc _ u (by omega)).le (by omega)) fun l r u hr' => ?_
        simp only [SEnds]; omega
      · simp only [SEnds]; omega
    · intro sc ts u h
      simp only [exprS]
      split
      · simp only [STok.sizeL, STok.size] at h
        refine SEnds.bind (k := 2) ((SEnds.lamArgs n sc _ u (by omega)).le (by simp only [STok.sizeL, STok.size]; omega)) fun args r u hr => ?_
        simp only [STok.sizeL, STok.size] at hr
        refine SEnds.bind (k := 3) ((SEnds.punct _ sc _ u).le (by simp only [STok.sizeL, STok.size]; omega)) fun _ r u hr => ?_
        simp only [STok.sizeL, STok.size] at hr
        refine SEnds.bind (k := 1) ((ih.alt sc _ u (by first | omega | (dsimp only; omega))).le (by simp only [STok.sizeL, STok.size]; omega)) fun l r u hr' => ?_
        simp only [STok.sizeL, STok.size] at hr'
        simp only [SEnds, STok.sizeL, STok.size]; omega
      · refine (ih.alt sc _ u (by omega)).bind fun l r u hr => ?_
        simp only [SEnds]; omega

theorem stmt_ends (sp : List STok → Nat) : ∀ (n : Nat) (sc : Option Nat) (ts : List STok) (u : Option Nat), 8 * STok.sizeL ts + 8 ≤ n →
    SEnds ts 1 (stmtS sp n sc ts u)
  | 0, _, _, _, h => by omega
  | n + 1, sc, ts, u, h => by
    simp only [stmtS]
    split
    · simp only [STok.sizeL, STok.size] at h
      refine SEnds.bind (k := 2) ((SEnds.anyIdent sc _ u).le (by simp only [STok.sizeL, STok.size]; omega)) fun x r u hr => ?_
      simp only [STok.sizeL, STok.size] at hr
      refine SEnds.bind (k := 2) ((SEnds.letArgs n sc r u (by first | omega | (dsimp only; omega))).le (by simp only [STok.sizeL, STok.size]; omega)) fun args r u hr => ?_
      simp only [STok.sizeL, STok.size] at hr
      refine SEnds.bind (k := 3) ((SEnds.punct _ sc r u).le (by simp only [STok.sizeL, STok.size]; omega)) fun _ r u hr => ?_
      simp only [STok.sizeL, STok.size] at hr
      refine SEnds.bind (k := 4) (((expr_ends sp n).expr sc r u (by first | omega | (dsimp only; omega))).le (by simp only [STok.sizeL, STok.size]; omega)) fun e r u hr => ?_
      simp only [STok.sizeL, STok.size] at hr
      refine SEnds.bind (k := 5) ((SEnds.punct _ sc r u).le (by simp only [STok.sizeL, STok.size]; omega)) fun _ r u hr => ?_
      simp only [STok.sizeL, STok.size] at hr
      refine SEnds.bind (k := 1) ((stmt_ends sp n sc r u (by first | omega | (dsimp only; omega))).le (by simp only [STok.sizeL, STok.size]; omega)) fun s r u hr => ?_
      exact hr
    · simp only [STok.sizeL, STok.size] at h
      refine SEnds.bind (k := 2) (((expr_ends sp n).expr sc _ u (by first | omega | (dsimp only; omega))).le (by simp only [STok.sizeL, STok.size]; omega)) fun e r u hr => ?_
      simp only [STok.sizeL, STok.size] at hr
      refine SEnds.bind (k := 1) ((SEnds.punct _ sc r u).le (by simp only [STok.sizeL, STok.size]; omega)) fun _ r u hr => ?_
      exact hr
    · trivial

end
end Chomp
