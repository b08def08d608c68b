import Verif.Bench.Lalr
import Verif.Bench.ArithNibble

/-!
# The LALRPOP grammar of arithmetic expressions: `/repo/chomp-bench/src/arith/lalr.lalrpop`
-/

namespace Chomp

/-- The tokens of `chomp-bench/src/arith/lalr.lalrpop`: the text of `r"[0-9]+"` (33) and the literals (12,13,23,24,29,30). -/
inductive LTok where
  | num (s : List Char)
  | plus | minus | star | slash | lpar | rpar
deriving DecidableEq, Repr

/-- The longest token at the beginning of a text.  No two tokens start with the same character. -/
def arithTok : List Char → Option (LTok × List Char)
  | [] => none
  | c :: s =>
    if c.isDigit then some (.num (c :: s.takeWhile Char.isDigit), s.dropWhile Char.isDigit)
    else if c = '+' then some (.plus, s)
    else if c = '-' then some (.minus, s)
    else if c = '*' then some (.star, s)
    else if c = '/' then some (.slash, s)
    else if c = '(' then some (.lpar, s)
    else if c = ')' then some (.rpar, s)
    else none

mutual
/-- `chomp-bench/src/arith/lalr.lalrpop:27-31,33`: derivations of `Term`, with those of `Number`. -/
inductive LTerm where
  | number (s : List Char)
  | neg (s : List Char)
  | parens (e : LExpr)
/-- `chomp-bench/src/arith/lalr.lalrpop:16-20`: derivations of `Product`. -/
inductive LProd where
  | mk (t : LTerm) (v : LMuls)
/-- `chomp-bench/src/arith/lalr.lalrpop:17,22-25`: derivations of `(<MulOp> <Term>)*`; the flag is the value of `MulOp`. -/
inductive LMuls where
  | nil
  | cons (op : Bool) (t : LTerm) (v : LMuls)
/-- `chomp-bench/src/arith/lalr.lalrpop:5-9`: derivations of `Expression`. -/
inductive LExpr where
  | mk (p : LProd) (v : LAdds)
/-- `chomp-bench/src/arith/lalr.lalrpop:6,11-14`: derivations of `(<AddOp> <Product>)*`. -/
inductive LAdds where
  | nil
  | cons (op : Bool) (p : LProd) (v : LAdds)
end

mutual
/-- `chomp-bench/src/arith/lalr.lalrpop:27-31`: the tokens of a derivation. -/
def LTerm.toks : LTerm → List LTok
  | .number s => [.num s]
  | .neg s => [.minus, .num s]
  | .parens e => .lpar :: (e.toks ++ [.rpar])
/-- `chomp-bench/src/arith/lalr.lalrpop:17`. -/
def LProd.toks : LProd → List LTok
  | .mk t v => t.toks ++ v.toks
/-- `chomp-bench/src/arith/lalr.lalrpop:17,23,24`. -/
def LMuls.toks : LMuls → List LTok
  | .nil => []
  | .cons op t v => (if op then .star else .slash) :: (t.toks ++ v.toks)
/-- `chomp-bench/src/arith/lalr.lalrpop:6`. -/
def LExpr.toks : LExpr → List LTok
  | .mk p v => p.toks ++ v.toks
/-- `chomp-bench/src/arith/lalr.lalrpop:6,12,13`. -/
def LAdds.toks : LAdds → List LTok
  | .nil => []
  | .cons op p v => (if op then .plus else .minus) :: (p.toks ++ v.toks)
end

mutual
/-- `chomp-bench/src/arith/lalr.lalrpop:27-31,33`: the actions of `Term` and `Number`; `none` is a panic. -/
def LTerm.run (m : Ovf) : LTerm → Option Int
  | .number s => parseI64 s
  | .neg s => (parseI64 s).bind fun x => m.fit (-x)
  | .parens e => e.run m
/-- `chomp-bench/src/arith/lalr.lalrpop:17-19`: the action of `Product`: the values of the terms are computed before the
products. -/
def LProd.run (m : Ovf) : LProd → Option Int
  | .mk t v => (t.run m).bind fun t => (v.run m).bind fun l =>
    l.foldl (fun acc (p : Bool × Int) => acc.bind fun acc => if p.1 then m.fit (acc * p.2) else divI64 acc p.2) (some t)
/-- `chomp-bench/src/arith/lalr.lalrpop:17,22-25`: the values of `(<MulOp> <Term>)*`. -/
def LMuls.run (m : Ovf) : LMuls → Option (List (Bool × Int))
  | .nil => some []
  | .cons op t v => (t.run m).bind fun t => (v.run m).map ((op, t) :: ·)
/-- `chomp-bench/src/arith/lalr.lalrpop:6-8`: the action of `Expression`. -/
def LExpr.run (m : Ovf) : LExpr → Option Int
  | .mk p v => (p.run m).bind fun p => (v.run m).bind fun l =>
    l.foldl (fun acc (p : Bool × Int) => acc.bind fun acc => if p.1 then m.fit (acc + p.2) else m.fit (acc - p.2)) (some p)
/-- `chomp-bench/src/arith/lalr.lalrpop:6,11-14`: the values of `(<AddOp> <Product>)*`. -/
def LAdds.run (m : Ovf) : LAdds → Option (List (Bool × Int))
  | .nil => some []
  | .cons op p v => (p.run m).bind fun p => (v.run m).map ((op, p) :: ·)
end

/-- `chomp-bench/src/arith/lalr.lalrpop`: `ExpressionParser::parse` accepts the text, and computing the value ends with `r`
(`none`: a panic in an action). -/
def LalrArith (m : Ovf) (text : List Char) (r : Option Int) : Prop :=
  ∃ e : LExpr, lalrTokens arithTok text = some e.toks ∧ e.run m = r

end Chomp
