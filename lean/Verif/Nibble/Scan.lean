import Verif.Nibble.Spanned
import Verif.Props.Syntax

/-!
# Beginnings of programs

Specification for C84: when a sequence of tokens can be continued to a program.  Delimiters are tokens of
their own here.  An automaton (`LState.step`) that decides this is used in the proofs only.
-/

namespace Chomp

/-- A token, delimiters being tokens. -/
inductive FTok where
  | ident (raw : Bool) (sym : String)
  | punct (c : Char)
  | str (value : List Char)
  | other
  | opn (paren : Bool)
  | cls (paren : Bool)
deriving DecidableEq, Repr

mutual
/-- The tokens in reading order. -/
def Tok.flat : Tok → List FTok
  | .ident r s => [.ident r s]
  | .punct c => [.punct c]
  | .str v => [.str v]
  | .other => [.other]
  | .group p l => .opn p :: (Tok.flatL l ++ [.cls p])
def Tok.flatL : List Tok → List FTok
  | [] => []
  | t :: l => t.flat ++ Tok.flatL l
end

mutual
/-- The tokens in reading order, with their places. -/
def STok.flat : STok → List (FTok × Nat)
  | .ident r s p => [(.ident r s, p)]
  | .punct c p => [(.punct c, p)]
  | .str v p => [(.str v, p)]
  | .other p => [(.other, p)]
  | .group b o l c => (.opn b, o) :: (STok.flatL l ++ [(.cls b, c)])
def STok.flatL : List STok → List (FTok × Nat)
  | [] => []
  | t :: l => t.flat ++ STok.flatL l
end

/-- The tokens are the beginning of a program: of what the parser accepts. -/
def CanContinue [Reserved] (w : List FTok) : Prop :=
  ∃ ts s, parseProgram ts = .ok s ∧ ∃ rest, Tok.flatL ts = w ++ rest

/-- The token is of the kind that an error names. -/
def Expect.Fits : Expect → FTok → Prop
  | .word s, t => t = .ident false s
  | .punct c, t => t = .punct c
  | .str, t => ∃ v, t = .str v
  | .paren, t => t = .opn true
  | .ident, t => ∃ r s, t = .ident r s

/-! ## The automaton -/

/-- What comes next. -/
inductive LMode where
  | stmt | letName | letArgs | expr | lam0 | lam1 | term | after | label | afterLabel | done
deriving DecidableEq, Repr

/-- `goal`: the statement is a `match`; `depth`: the number of open parentheses. -/
structure LState where
  goal : Bool
  depth : Nat
  mode : LMode
deriving DecidableEq, Repr

def LState.termStep (σ : LState) : FTok → Option LState
  | .ident _ _ => some { σ with mode := .after }
  | .str _ => some { σ with mode := .after }
  | .punct c => if c = '!' then some { σ with mode := .term } else none
  | .opn p => if p then some ⟨σ.goal, σ.depth + 1, .expr⟩ else none
  | _ => none

def LState.closeStep (σ : LState) : FTok → Option LState
  | .punct c =>
    if c = '|' then some { σ with mode := .term }
    else if c = ';' then if σ.depth = 0 then some { σ with mode := if σ.goal then .done else .stmt } else none
    else none
  | .cls p => if p ∧ σ.depth ≠ 0 then some ⟨σ.goal, σ.depth - 1, .after⟩ else none
  | _ => none

section
variable [Reserved]

/-- An identifier that `input.parse::<Ident>()` accepts. -/
def plainName (raw : Bool) (sym : String) : Bool := raw || !Reserved.words.contains sym

def LState.step (σ : LState) (t : FTok) : Option LState :=
  match σ.mode with
  | .stmt =>
    match t with
    | .ident raw s =>
      if raw = false ∧ s = "let" then some ⟨false, σ.depth, .letName⟩
      else if raw = false ∧ s = "match" then some ⟨true, σ.depth, .expr⟩ else none
    | _ => none
  | .letName => match t with | .ident _ _ => some { σ with mode := .letArgs } | _ => none
  | .letArgs =>
    match t with
    | .punct c => if c = '=' then some { σ with mode := .expr } else none
    | .ident r s => if plainName r s then some σ else none
    | _ => none
  | .expr => if t = .punct '/' then some { σ with mode := .lam0 } else σ.termStep t
  | .lam0 => match t with | .ident r s => if plainName r s then some { σ with mode := .lam1 } else none | _ => none
  | .lam1 =>
    match t with
    | .punct c => if c = '/' then some { σ with mode := .term } else none
    | .ident r s => if plainName r s then some σ else none
    | _ => none
  | .term => σ.termStep t
  | .after =>
    if t = .punct '.' then some { σ with mode := .term }
    else if t = .punct ':' then some { σ with mode := .label }
    else match σ.termStep t with | some τ => some τ | none => σ.closeStep t
  | .label => match t with | .ident _ _ => some { σ with mode := .afterLabel } | _ => none
  | .afterLabel => σ.closeStep t
  | .done => none

def LState.run (σ : LState) : List FTok → Option LState
  | [] => some σ
  | t :: w => (σ.step t).bind fun τ => τ.run w

def LState.start : LState := ⟨false, 0, .stmt⟩

theorem LState.run_append (σ : LState) (a b : List FTok) : σ.run (a ++ b) = (σ.run a).bind fun τ => τ.run b := by
  induction a generalizing σ with
  | nil => rfl
  | cons t a ih =>
    simp only [List.cons_append, LState.run]
    cases σ.step t with
    | none => rfl
    | some τ => exact ih τ

end

mutual
theorem STok.flat_erase : ∀ t : STok, t.flat.map (·.1) = t.erase.flat
  | .ident _ _ _ => rfl
  | .punct _ _ => rfl
  | .str _ _ => rfl
  | .other _ => rfl
  | .group p o l c => by simp [STok.flat, STok.erase, Tok.flat, STok.flatL_erase l]
theorem STok.flatL_erase : ∀ l : List STok, (STok.flatL l).map (·.1) = Tok.flatL (STok.eraseL l)
  | [] => rfl
  | t :: l => by simp [STok.flatL, STok.eraseL, Tok.flatL, STok.flat_erase t, STok.flatL_erase l]
end

theorem STok.flatL_append (a b : List STok) : STok.flatL (a ++ b) = STok.flatL a ++ STok.flatL b := by
  induction a with
  | nil => rfl
  | cons t a ih => simp [STok.flatL, ih]

theorem STok.eraseL_append (a b : List STok) : STok.eraseL (a ++ b) = STok.eraseL a ++ STok.eraseL b := by
  induction a with
  | nil => rfl
  | cons t a ih => simp [STok.eraseL, ih]

theorem Tok.flatL_append (a b : List Tok) : Tok.flatL (a ++ b) = Tok.flatL a ++ Tok.flatL b := by
  induction a with
  | nil => rfl
  | cons t a ih => simp [Tok.flatL, ih]

/-- The first token, a group being its opening delimiter. -/
def STok.hd : STok → FTok
  | .ident r s _ => .ident r s
  | .punct c _ => .punct c
  | .str v _ => .str v
  | .other _ => .other
  | .group b _ _ _ => .opn b

theorem STok.flat_hd (t : STok) : ∃ b, t.flat = (t.hd, t.span) :: b := by
  cases t <;> exact ⟨_, rfl⟩

theorem STok.hd_ne_cls (t : STok) (p : Bool) : t.hd ≠ .cls p := by
  cases t <;> simp [STok.hd]

end Chomp
