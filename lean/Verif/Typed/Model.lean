import Verif.Typed.CharSet
import Verif.Ast.Model

/-!
# Types and type inference: `/repo/src/chomp/typed/`

Typed expressions do not carry spans here: nothing observes them except the spans of generated tokens.
-/

namespace Chomp

/-- `src/chomp/typed/mod.rs:19-24`: `Type`. -/
structure Ty where
  nullable : Bool
  first : CharSet
  flast : CharSet
deriving DecidableEq

/-- `src/chomp/typed/mod.rs:19`: `Type::default()`. -/
def Ty.default : Ty := ⟨false, .empty, .empty⟩

/-- `src/chomp/typed/mod.rs:35-41`: `Type::of_str`. -/
def Ty.ofStr (s : List Char) : Ty := ⟨s.isEmpty, .ofStr s, .empty⟩

/-- `src/chomp/typed/mod.rs:82-88`: the type of epsilon. -/
def Ty.eps : Ty := ⟨true, .empty, .empty⟩

/-- `src/chomp/typed/mod.rs:55-68`: `Type::cat`. -/
def Ty.cat (a b : Ty) : Ty where
  first := if a.nullable then a.first.union b.first else a.first
  flast := if b.nullable then (a.flast.union b.first).union b.flast else b.flast
  nullable := a.nullable && b.nullable

/-- `src/chomp/typed/mod.rs:70-74`: `Type::alt`. -/
def Ty.alt (a b : Ty) : Ty where
  nullable := a.nullable || b.nullable
  first := a.first.union b.first
  flast := a.flast.union b.flast

/-- `src/chomp/typed/mod.rs:77-80,90-94,115-119,131-135,147-150,158-162,170-178,216-221`:
`TypedExpression` and the kinds of typed expressions, without spans.  The types of epsilon, literals
and fix points are computed (`TE.ty`). -/
inductive TE where
  | eps (name : Option Name)
  | lit (name : Option Name) (s : List Char)
  | cat (name : Option Name) (ty : Ty) (terms : List TE)
  | alt (name : Option Name) (ty : Ty) (terms : List TE)
  | fix (name : Option Name) (inner : TE)
  | var (name : Option Name) (index : Nat) (ty : Ty)

/-- `src/chomp/typed/mod.rs:238-275`: `Typed::get_type`. -/
def TE.ty : TE → Ty
  | .eps _ => .eps
  | .lit _ s => .ofStr s
  | .cat _ t _ => t
  | .alt _ t _ => t
  | .fix _ b => b.ty
  | .var _ _ t => t

/-- The field `name` of `TypedExpression`. -/
def TE.name : TE → Option Name
  | .eps n => n
  | .lit n _ => n
  | .cat n _ _ => n
  | .alt n _ _ => n
  | .fix n _ => n
  | .var n _ _ => n

/-- `src/chomp/typed/context.rs:5-9`: `Context` (innermost variable last, as in the `Vec`s). -/
structure TCtx where
  vars : List Ty
  unguard : List Nat
deriving DecidableEq

/-- `src/chomp/typed/context.rs:49-53`: `GetVariableError`. -/
inductive VarErr where
  | free | guarded
deriving DecidableEq, Repr

/-- `src/chomp/typed/error.rs:13-19,38-48,72-84,105-114`: `TypeError`, `CatError`, `AltError` and
`VariableError`; the expressions carried by the last four are reduced to their span. -/
inductive TErr where
  | firstNullable (expr : TE) (punct : Nat)
  | firstFlastOverlap (front : Ty) (punct : Nat) (next : TE)
  | bothNullable (left : Ty) (punct : Nat) (right : TE)
  | firstOverlap (left : Ty) (punct : Nat) (right : TE)
  | variable (err : VarErr) (index : Nat) (span : Nat) (name : Option Name)
  | expectedLambda (span : Nat)
  | unexpectedCall (span : Nat)
  | unexpectedLambda (span : Nat)
  | unexpectedLet (span : Nat)

/-- The outcome of an inference and the context it leaves behind (the `&mut Context` is shared). -/
abbrev Inf (α : Type) := Out TErr α × TCtx

/-- The `?` operator. -/
def Inf.bind {α β : Type} (x : Inf α) (f : α → TCtx → Inf β) : Inf β :=
  match x with
  | (.ok a, c) => f a c
  | (.err e, c) => (.err e, c)
  | (.panic, c) => (.panic, c)
  | (.oof, c) => (.oof, c)

/-- `src/chomp/typed/context.rs:20-25`: `Context::with_unguard`. -/
def TCtx.withUnguard {α : Type} (c : TCtx) (f : TCtx → Inf α) : Inf α :=
  match f { c with unguard := c.unguard ++ [c.vars.length] } with
  | (r, c) => (r, { c with unguard := c.unguard.dropLast })

/-- `src/chomp/typed/context.rs:41-46`: `Context::with_variable_type`. -/
def TCtx.withVar {α : Type} (c : TCtx) (ty : Ty) (f : TCtx → Inf α) : Inf α :=
  match f { c with vars := c.vars ++ [ty] } with
  | (r, c) => (r, { c with vars := c.vars.dropLast })

/-- `src/chomp/typed/context.rs:27-39`: `Context::get_variable_type`. -/
def TCtx.getVar (c : TCtx) (index : Nat) : Except VarErr Ty :=
  match c.vars.reverse[index]? with
  | none => .error .free
  | some ty =>
    if c.unguard.getLast?.getD 0 + index ≥ c.vars.length then .ok ty else .error .guarded

/-- `src/chomp/typed/infer.rs:130-147`: the loop of `fold_fix`; `f` types the body given a type for the
variable.  Fuel bounds the number of iterations. -/
def fixLoop (f : Ty → TCtx → Inf TE) : Nat → Ty → TCtx → Inf TE
  | 0, _, c => (.oof, c)
  | n + 1, last, c =>
    (f last c).bind fun res c => if last = res.ty then (.ok res, c) else fixLoop f n res.ty c

mutual
/-- `src/chomp/typed/infer.rs:22-191`: folding with `TypeInfer`.  As in the code the name of the
expression is passed separately (`fold_fix` changes the name of the body).  The fuel `n` bounds the
iterations of each fix-point loop. -/
def infer (n : Nat) : Option Name → NE → TCtx → Inf TE
  | nm, .eps _, c => (.ok (.eps nm), c)
  | nm, .lit _ s, c => (.ok (.lit nm s), c)
  | nm, .cat _ f rest, c =>
    (infer n f.info.name f c).bind fun first c =>
      if first.ty.nullable then
        (.err (.firstNullable first ((rest.head?.map (·.1)).getD 0)), c)
      else
        (c.withUnguard (inferCat n first.ty rest)).bind fun r c =>
          (.ok (.cat nm r.2 (first :: r.1)), c)
  | nm, .alt _ f rest, c =>
    (infer n f.info.name f c).bind fun first c =>
      (inferAlt n first.ty rest c).bind fun r c => (.ok (.alt nm r.2 (first :: r.1)), c)
  | nm, .fix _ (.lam j _ b), c =>
    (fixLoop (fun t c => c.withVar t (infer n (Name.mergeAll [j.name, b.info.name, nm]) b)) n .default c).bind
      fun res c => (.ok (.fix nm res), c)
  | _, .fix i _, c => (.err (.expectedLambda i.span), c)
  | nm, .var i k, c =>
    match c.getVar k with
    | .ok ty => (.ok (.var nm k ty), c)
    | .error e => (.err (.variable e k i.span nm), c)
  | _, .call i _ _, c => (.err (.unexpectedCall i.span), c)
  | _, .lam i _ _, c => (.err (.unexpectedLambda i.span), c)
  | _, .letE i _ _ _, c => (.err (.unexpectedLet i.span), c)
/-- `src/chomp/typed/infer.rs:51-69`: the elements after the first of a concatenation, with the type
of what precedes them; also returns the final type. -/
def inferCat (n : Nat) : Ty → List (Nat × NE) → TCtx → Inf (List TE × Ty)
  | ty, [], c => (.ok ([], ty), c)
  | ty, (punct, e) :: l, c =>
    (infer n e.info.name e c).bind fun right c =>
      if ty.flast.disjoint right.ty.first then
        (inferCat n (ty.cat right.ty) l c).bind fun r c => (.ok (right :: r.1, r.2), c)
      else (.err (.firstFlastOverlap ty punct right), c)
/-- `src/chomp/typed/infer.rs:84-108`: the elements after the first of an alternation. -/
def inferAlt (n : Nat) : Ty → List (Nat × NE) → TCtx → Inf (List TE × Ty)
  | ty, [], c => (.ok ([], ty), c)
  | ty, (punct, e) :: l, c =>
    (infer n e.info.name e c).bind fun right c =>
      if ty.nullable && right.ty.nullable then (.err (.bothNullable ty punct right), c)
      else if ty.first.disjoint right.ty.first then
        (inferAlt n (ty.alt right.ty) l c).bind fun r c => (.ok (right :: r.1, r.2), c)
      else (.err (.firstOverlap ty punct right), c)
end

/-- `expr.fold(&mut TypeInfer { context })`. -/
def inferTop (n : Nat) (e : NE) (c : TCtx) : Inf TE := infer n e.info.name e c

end Chomp
