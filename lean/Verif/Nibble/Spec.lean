import Verif.Nibble.Model
import Verif.Ast.Core

/-!
# Specification of nibble programs: named expressions with lexical scoping

`NCore` is a named λ-calculus; `flat*` reads a syntax tree as a named expression (a concatenation,
alternation or call of one element is that element; an empty one is no expression).
-/

namespace Chomp

/-- Named expressions. -/
inductive NCore where
  | eps
  | lit (s : List Char)
  | cat (l : List NCore)
  | alt (l : List NCore)
  | fix (b : NCore)
  | id (i : Ident)
  | call (on : NCore) (args : List NCore)
  | lam (params : List Ident) (b : NCore)
  | letE (x : Ident) (bound body : NCore)

mutual
/-- The identifiers used but not declared, in source order; `scope` lists the names in scope. -/
def NCore.free : List Content → NCore → List Ident
  | _, .eps => []
  | _, .lit _ => []
  | scope, .cat l => NCore.freeL scope l
  | scope, .alt l => NCore.freeL scope l
  | scope, .fix b => b.free scope
  | scope, .id i => if scope.any (fun m => m.eqv i.content) then [] else [i]
  | scope, .call o a => o.free scope ++ NCore.freeL scope a
  | scope, .lam ps b => b.free (scope ++ ps.map Ident.content)
  | scope, .letE x b c => b.free scope ++ c.free (scope ++ [x.content])
def NCore.freeL : List Content → List NCore → List Ident
  | _, [] => []
  | scope, e :: l => e.free scope ++ NCore.freeL scope l
end

/-- The value of a name: that of the innermost binding (the environment lists the innermost binding
first). -/
def lookupEnv {D : Type} (dflt : D) : List (Content × D) → Ident → D
  | [], _ => dflt
  | (x, d) :: env, i => if x.eqv i.content then d else lookupEnv dflt env i

mutual
/-- Lexically scoped evaluation of named expressions in an arbitrary higher-order algebra. -/
def NCore.eval {D : Type} (A : Alg D) (dflt : D) : NCore → List (Content × D) → D
  | .eps, _ => A.eps
  | .lit s, _ => A.lit s
  | .cat l, env => A.cat (NCore.evalL A dflt l env)
  | .alt l, env => A.alt (NCore.evalL A dflt l env)
  | .fix b, env => A.fix (b.eval A dflt env)
  | .id i, env => lookupEnv dflt env i
  | .call o a, env => A.call (o.eval A dflt env) (NCore.evalL A dflt a env)
  | .lam ps b, env => A.lam ps.length fun ds =>
      b.eval A dflt ((ps.zipIdx.map fun (p, j) =>
        (p.content, if h : j < ps.length then ds ⟨j, h⟩ else dflt)).reverse ++ env)
  | .letE x b c, env => A.letE (b.eval A dflt env) fun d => c.eval A dflt ((x.content, d) :: env)
def NCore.evalL {D : Type} (A : Alg D) (dflt : D) : List NCore → List (Content × D) → List D
  | [], _ => []
  | e :: l, env => e.eval A dflt env :: NCore.evalL A dflt l env
end

/-- One element stands for itself. -/
def NCore.mkCat (e : NCore) : List NCore → NCore
  | [] => e
  | l => .cat (e :: l)
/-- One element stands for itself. -/
def NCore.mkAlt (e : NCore) : List NCore → NCore
  | [] => e
  | l => .alt (e :: l)
/-- A call without arguments is its function. -/
def NCore.mkCall (e : NCore) : List NCore → NCore
  | [] => e
  | l => .call e l
/-- A let without parameters binds its expression. -/
def NCore.mkLam (ps : List Ident) (e : NCore) : NCore :=
  match ps with
  | [] => e
  | ps => .lam ps e

mutual
def flatTerm : Term → Option NCore
  | .eps _ => some .eps
  | .ident i => some (.id i)
  | .lit _ s => some (.lit s)
  | .fix _ t => (flatTerm t).map .fix
  | .parens e => flatExpr e
def flatCall : Call → Option NCore
  | .mk _ [] => none
  | .mk _ (t :: ts) => (flatTerm t).bind fun e => (flatTerms ts).map (NCore.mkCall e)
def flatTerms : List Term → Option (List NCore)
  | [] => some []
  | t :: ts => (flatTerm t).bind fun e => (flatTerms ts).map (e :: ·)
def flatCat : Cat → Option NCore
  | .mk _ [] => none
  | .mk _ ((x, _) :: l) => (flatCall x).bind fun e => (flatCalls l).map (NCore.mkCat e)
def flatCalls : List (Call × Nat) → Option (List NCore)
  | [] => some []
  | (x, _) :: l => (flatCall x).bind fun e => (flatCalls l).map (e :: ·)
def flatLabelled : Labelled → Option NCore
  | .mk _ cat _ => flatCat cat
def flatAlt : Alt → Option NCore
  | .mk _ [] => none
  | .mk _ ((x, _) :: l) => (flatLabelled x).bind fun e => (flatLabelleds l).map (NCore.mkAlt e)
def flatLabelleds : List (Labelled × Nat) → Option (List NCore)
  | [] => some []
  | (x, _) :: l => (flatLabelled x).bind fun e => (flatLabelleds l).map (e :: ·)
def flatExpr : Expr → Option NCore
  | .alt a => flatAlt a
  | .lam _ args body => (flatAlt body).map (.lam args)
end

def flatStmt : Stmt → Option NCore
  | .goal _ e => flatExpr e
  | .letS _ x args e next =>
    (flatExpr e).bind fun b => (flatStmt next).map fun c => .letE x (NCore.mkLam args b) c

/-- The names declared by the let statements of a program, in order. -/
def Stmt.lets : Stmt → List Content
  | .goal _ _ => []
  | .letS _ x _ _ next => x.content :: next.lets

end Chomp
