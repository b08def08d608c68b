import Verif.Bench.Arith

/-! # Specification: arithmetic expressions, their texts and their values

Independent of any parser. -/

namespace Chomp

/-- `n` spaces. -/
def spaces (n : Nat) : List Char := List.replicate n ' '

/-- A decimal number: a non-empty sequence of digits. -/
structure Numeral where
  first : Fin 10
  rest : List (Fin 10)

/-- The character of a digit. -/
def digitChar (d : Fin 10) : Char := Char.ofNat (48 + d.val)

def Numeral.text (n : Numeral) : List Char := (n.first :: n.rest).map digitChar
/-- The number denoted by a sequence of digits, most significant first. -/
def decimal (l : List (Fin 10)) : Nat := l.foldl (fun a d => a * 10 + d.val) 0
def Numeral.val (n : Numeral) : Nat := decimal (n.first :: n.rest)

mutual
/-- Terms: a number, a negated number or an expression in parentheses, followed by spaces; the other numbers of
spaces are those after the minus sign and the opening parenthesis. -/
inductive ATerm where
  | pos (n : Numeral) (sp : Nat)
  | neg (sp1 : Nat) (n : Numeral) (sp : Nat)
  | paren (sp1 : Nat) (e : ASum) (sp : Nat)
/-- Products; operators associate to the left and may be followed by spaces. -/
inductive AProd where
  | term (t : ATerm)
  | mul (l : AProd) (sp : Nat) (r : ATerm)
  | div (l : AProd) (sp : Nat) (r : ATerm)
/-- Sums. -/
inductive ASum where
  | prod (p : AProd)
  | add (l : ASum) (sp : Nat) (r : AProd)
  | sub (l : ASum) (sp : Nat) (r : AProd)
end

mutual
def ATerm.text : ATerm → List Char
  | .pos n sp => n.text ++ spaces sp
  | .neg sp1 n sp => '-' :: spaces sp1 ++ n.text ++ spaces sp
  | .paren sp1 e sp => '(' :: spaces sp1 ++ e.text ++ ')' :: spaces sp
def AProd.text : AProd → List Char
  | .term t => t.text
  | .mul l sp r => l.text ++ '*' :: spaces sp ++ r.text
  | .div l sp r => l.text ++ '/' :: spaces sp ++ r.text
def ASum.text : ASum → List Char
  | .prod p => p.text
  | .add l sp r => l.text ++ '+' :: spaces sp ++ r.text
  | .sub l sp r => l.text ++ '-' :: spaces sp ++ r.text
end

/-- Apply an operation that may fail to two values that may be missing. -/
def bin (f : Int → Int → Option Int) (a b : Option Int) : Option Int := a.bind fun a => b.bind fun b => f a b

mutual
/-- The value in 64-bit arithmetic; `none` if an operation fails. -/
def ATerm.eval (m : Ovf) : ATerm → Option Int
  | .pos n _ => m.fit n.val
  | .neg _ n _ => (m.fit n.val).bind fun v => m.fit (-v)
  | .paren _ e _ => e.eval m
def AProd.eval (m : Ovf) : AProd → Option Int
  | .term t => t.eval m
  | .mul l _ r => bin (fun a b => m.fit (a * b)) (l.eval m) (r.eval m)
  | .div l _ r => bin divI64 (l.eval m) (r.eval m)
def ASum.eval (m : Ovf) : ASum → Option Int
  | .prod p => p.eval m
  | .add l _ r => bin (fun a b => m.fit (a + b)) (l.eval m) (r.eval m)
  | .sub l _ r => bin (fun a b => m.fit (a - b)) (l.eval m) (r.eval m)
end

mutual
/-- The value in exact arithmetic (integers, truncating division); `none` on division by zero. -/
def ATerm.exact : ATerm → Option Int
  | .pos n _ => some n.val
  | .neg _ n _ => some (-n.val)
  | .paren _ e _ => e.exact
def AProd.exact : AProd → Option Int
  | .term t => t.exact
  | .mul l _ r => bin (fun a b => some (a * b)) l.exact r.exact
  | .div l _ r => bin (fun a b => if b = 0 then none else some (a.tdiv b)) l.exact r.exact
def ASum.exact : ASum → Option Int
  | .prod p => p.exact
  | .add l _ r => bin (fun a b => some (a + b)) l.exact r.exact
  | .sub l _ r => bin (fun a b => some (a - b)) l.exact r.exact
end

/-- A whole input: spaces and a sum. -/
structure AInput where
  sp : Nat
  sum : ASum

def AInput.text (i : AInput) : List Char := spaces i.sp ++ i.sum.text

end Chomp
