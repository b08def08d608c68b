import Verif.Ast.Model

/-!
# Nibble syntax trees and their conversion

`/repo/src/nibble/mod.rs` (data types) and `/repo/src/nibble/convert.rs`.

`syn` computes the span of a node from its tokens; here every node carries its span explicitly.
`Punctuated<T, P>` is a list of pairs of an element and the span of the punctuation after it
(irrelevant for the last element).
-/

namespace Chomp

/-- `src/nibble/mod.rs:18`: `Ident = syn::Ident` (see `Content` for `proc_macro2` identifiers). -/
structure Ident where
  raw : Bool
  sym : String
  span : Nat
deriving DecidableEq, Repr

/-- `src/chomp/name.rs:102-106`: `From<Ident> for Content`. -/
def Ident.content (i : Ident) : Content := .spanned i.raw i.sym i.span

mutual
/-- `src/nibble/mod.rs:22-26,49-53,78-85`: `Term`, with `Fix` and `ParenExpression` inlined. -/
inductive Term where
  | eps (span : Nat)
  | ident (i : Ident)
  | lit (span : Nat) (s : List Char)
  | fix (span : Nat) (t : Term)
  | parens (e : Expr)
/-- `src/nibble/mod.rs:131-132`: `Call`. -/
inductive Call where
  | mk (span : Nat) (terms : List Term)
/-- `src/nibble/mod.rs:161-162`: `Cat`. -/
inductive Cat where
  | mk (span : Nat) (items : List (Call × Nat))
/-- `src/nibble/mod.rs:183-187,210-214`: `Labelled`, with `Label` reduced to its identifier. -/
inductive Labelled where
  | mk (span : Nat) (cat : Cat) (label : Option Ident)
/-- `src/nibble/mod.rs:237-238`: `Alt`. -/
inductive Alt where
  | mk (span : Nat) (items : List (Labelled × Nat))
/-- `src/nibble/mod.rs:258-264,309-313`: `Expression`, with `Lambda` inlined. -/
inductive Expr where
  | alt (a : Alt)
  | lam (span : Nat) (args : List Ident) (body : Alt)
end

/-- `src/nibble/mod.rs:334-339,371-380,437-441`: `Statement`, with `GoalStatement` and `LetStatement` inlined. -/
inductive Stmt where
  | goal (span : Nat) (e : Expr)
  | letS (span : Nat) (name : Ident) (args : List Ident) (e : Expr) (next : Stmt)

/-- `src/nibble/convert.rs:59-65`: `ConvertError`. -/
inductive ConvErr where
  | undeclaredName (n : Name)
  | emptyCat (span : Nat)
  | emptyAlt (span : Nat)
  | emptyCall (span : Nat)
deriving DecidableEq, Repr

/-- `src/nibble/convert.rs:13-16`: `Context`: the bindings, outermost first. -/
abbrev Ctx := List Content

/-- Outcome of a conversion: the result and the context it leaves behind; `none` is a panic. -/
abbrev Conv (α : Type) := Option (Except ConvErr α × Ctx)

/-- The `?` operator. -/
def Conv.bind {α β : Type} (x : Conv α) (f : α → Ctx → Conv β) : Conv β :=
  match x with
  | some (.ok a, c) => f a c
  | some (.error e, c) => some (.error e, c)
  | none => none

/-- Position of the first element satisfying `p`. -/
def findIdx {α : Type} (p : α → Bool) : List α → Option Nat
  | [] => none
  | a :: l => if p a then some 0 else (findIdx p l).map (· + 1)

/-- `src/nibble/convert.rs:24-31`: `Context::lookup`. -/
def Ctx.lookup (c : Ctx) (n : Name) : Option Nat :=
  findIdx (fun m => m.eqv n.content) c.reverse

/-- `src/nibble/convert.rs:34-36`: `Context::push_variable`. -/
def Ctx.push (c : Ctx) (n : Name) : Ctx := c ++ [n.content]

/-- `src/nibble/convert.rs:46-56`: `Context::with_variables`.  `resize_with(len, || unreachable!())`
truncates; it panics if the context has become shorter. -/
def Ctx.withVariables {α : Type} (c : Ctx) (names : List Name) (f : Ctx → Conv α) : Conv α :=
  match f (c ++ names.map (·.content)) with
  | none => none
  | some (r, c') => if c'.length < c.length then none else some (r, c'.take c.length)

/-- `src/nibble/convert.rs:106-121`: `Convert for Ident`. -/
def convIdent (i : Ident) (c : Ctx) : Conv NE :=
  let name := Name.newVariable i.content
  match c.lookup name with
  | none => some (.error (.undeclaredName name), c)
  | some k => some (.ok (.var ⟨some name, i.span⟩ k), c)

mutual
/-- `src/nibble/convert.rs:123-162`: `Convert` for `Fix`, `ParenExpression` and `Term`. -/
def convTerm : Term → Ctx → Conv NE
  | .eps sp, c => some (.ok (.eps ⟨none, sp⟩), c)
  | .ident i, c => convIdent i c
  | .lit sp s, c => some (.ok (.lit ⟨none, sp⟩ s), c)
  | .fix sp t, c => (convTerm t c).bind fun e c => some (.ok (.fix ⟨none, sp⟩ e), c)
  | .parens e, c => convExpr e c
/-- `src/nibble/convert.rs:164-189`: `Convert for Call`. -/
def convCall : Call → Ctx → Conv NE
  | .mk sp [], c => some (.error (.emptyCall sp), c)
  | .mk sp (t :: ts), c =>
    (convTerm t c).bind fun on c => (convTerms ts c).bind fun args c =>
      match args with
      | [] => some (.ok on, c)
      | args => some (.ok (.call ⟨none, sp⟩ on args), c)
/-- `src/nibble/convert.rs:172-174`: the arguments of a call. -/
def convTerms : List Term → Ctx → Conv (List NE)
  | [], c => some (.ok [], c)
  | t :: ts, c => (convTerm t c).bind fun e c => (convTerms ts c).bind fun es c => some (.ok (e :: es), c)
/-- `src/nibble/convert.rs:191-231`: `Convert for Cat`. -/
def convCat : Cat → Ctx → Conv NE
  | .mk sp [], c => some (.error (.emptyCat sp), c)
  | .mk sp ((x, p) :: l), c =>
    (convCall x c).bind fun first c => (convCalls p l c).bind fun rest c =>
      match rest with
      | [] => some (.ok first, c)
      | rest => some (.ok (.cat ⟨none, sp⟩ first rest), c)
/-- `src/nibble/convert.rs:211-215`: the remaining elements of a concatenation, each with the
punctuation before it. -/
def convCalls : Nat → List (Call × Nat) → Ctx → Conv (List (Nat × NE))
  | _, [], c => some (.ok [], c)
  | punct, (x, p) :: l, c =>
    (convCall x c).bind fun e c => (convCalls p l c).bind fun es c => some (.ok ((punct, e) :: es), c)
/-- `src/nibble/convert.rs:233-246`: `Convert for Labelled`. -/
def convLabelled : Labelled → Ctx → Conv NE
  | .mk sp cat label, c =>
    (convCat cat c).bind fun named c =>
      some (.ok (named.setInfo
        ⟨Name.merge (label.map fun l => Name.newLabel l.content) named.info.name, sp⟩), c)
/-- `src/nibble/convert.rs:248-288`: `Convert for Alt`. -/
def convAlt : Alt → Ctx → Conv NE
  | .mk sp [], c => some (.error (.emptyAlt sp), c)
  | .mk sp ((x, p) :: l), c =>
    (convLabelled x c).bind fun first c => (convLabelleds p l c).bind fun rest c =>
      match rest with
      | [] => some (.ok first, c)
      | rest => some (.ok (.alt ⟨none, sp⟩ first rest), c)
/-- `src/nibble/convert.rs:268-272`: the remaining elements of an alternation. -/
def convLabelleds : Nat → List (Labelled × Nat) → Ctx → Conv (List (Nat × NE))
  | _, [], c => some (.ok [], c)
  | punct, (x, p) :: l, c =>
    (convLabelled x c).bind fun e c => (convLabelleds p l c).bind fun es c =>
      some (.ok ((punct, e) :: es), c)
/-- `src/nibble/convert.rs:290-315`: `Convert` for `Lambda` and `Expression`. -/
def convExpr : Expr → Ctx → Conv NE
  | .alt a, c => convAlt a c
  | .lam sp args body, c =>
    let args := args.map fun i => Name.newVariable i.content
    (c.withVariables args (convAlt body)).bind fun inner c =>
      some (.ok (.lam ⟨none, sp⟩ args inner), c)
end

/-- `src/nibble/convert.rs:332-346`: the bound expression of a let statement. -/
def convBound (sp : Nat) (args : List Ident) (e : Expr) (c : Ctx) : Conv NE :=
  match args with
  | [] => convExpr e c
  | args =>
    let args := args.map fun i => Name.newVariable i.content
    (c.withVariables args (convExpr e)).bind fun inner c =>
      some (.ok (.lam ⟨none, sp⟩ args inner), c)

/-- `src/nibble/convert.rs:317-374`: `Convert` for `GoalStatement`, `LetStatement` and
`Statement`. -/
def convStmt : Stmt → Ctx → Conv NE
  | .goal sp e, c =>
    (convExpr e c).bind fun inner c =>
      some (.ok (inner.setInfo
        ⟨Name.merge inner.info.name (some (.newVariable (.spanless "Ast"))), sp⟩), c)
  | .letS sp name args e next, c =>
    (convBound sp args e c).bind fun bound c =>
      let name := Name.newLet name.content
      (convStmt next (c.push name)).bind fun body c =>
        some (.ok (.letE ⟨none, sp⟩ name (bound.setName (some name)) body), c)

end Chomp
