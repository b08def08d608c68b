import Verif.Chewed.Model

/-!
# The hand-written arithmetic parser: `/repo/chomp-bench/src/arith/mod.rs`

`i64` values are integers; every arithmetic operation goes through `fit`, which says what happens when
the result is out of range.
-/

namespace Chomp

/-- What `+`, `-`, `*` and negation of `i64` do on overflow: panic (debug builds) or wrap around
(release builds). -/
inductive Ovf where
  | checked
  | wrapping
deriving DecidableEq, Repr

/-- The range of `i64`. -/
def InI64 (x : Int) : Prop := -9223372036854775808 ≤ x ∧ x < 9223372036854775808

instance (x : Int) : Decidable (InI64 x) := by unfold InI64; infer_instance

/-- The result of an `i64` operation whose exact result is `x`; `none` is a panic. -/
def Ovf.fit (m : Ovf) (x : Int) : Option Int :=
  if InI64 x then some x
  else match m with
    | .checked => none
    | .wrapping => some (x.bmod 18446744073709551616)

/-- `i64` division: truncating; panics on a zero divisor and on overflow in every build. -/
def divI64 (a b : Int) : Option Int :=
  if b = 0 then none
  else if InI64 (a.tdiv b) then some (a.tdiv b) else none

/-- Continue with the result of an operation that may panic. -/
def orPanic {α β : Type} (o : Option α) (f : α → Res β) : Res β :=
  match o with
  | some a => f a
  | none => .panic

/-- The value of a decimal digit. -/
def digitVal (c : Char) : Nat := c.toNat - '0'.toNat

/-- `chomp-bench/src/arith/mod.rs:52-56`: the characters expected by `take_number`. -/
def digitChars : List Char := ['0', '1', '2', '3', '4', '5', '6', '7', '8', '9']

/-- `chomp-bench/src/arith/mod.rs:9-62`: the loop of `take_number`; the ten arms for the digits, which
differ only in the digit, are one arm here (the arm for `0` does not add `0`).  Fuel bounds the number of
digits. -/
def takeNumberGo (m : Ovf) : Nat → Option Int → IW → Res Int
  | 0, _, _ => .oof
  | n + 1, out, w =>
    match w.peek with
    | (some c, w) =>
      if c.isDigit then
        (consumeStr [c] w).bind fun _ w =>
          orPanic (m.fit (out.getD 0 * 10)) fun x =>
            orPanic (m.fit (x + digitVal c)) fun x => takeNumberGo m n (some x) w
      else
        match out with
        | some v => .ok v w
        | none => .err (.badBranch w.pos c digitChars) w
    | (none, w) =>
      match out with
      | some v => .ok v w
      | none => .err (.endOfStream w.pos) w

/-- `chomp-bench/src/arith/mod.rs:7-63`: `take_number`. -/
def takeNumber (m : Ovf) (w : IW) : Res Int := takeNumberGo m (w.left + 1) none w

/-- `input.skip_while(|c| c == ' ')`. -/
def arithSpaces (w : IW) : IW := skipWhile (· == ' ') w

mutual
/-- `chomp-bench/src/arith/mod.rs:65-89`: `take_term`.  After a parenthesised expression the closing
parenthesis is consumed before the result of the expression is looked at, so that its error is returned
only if the parenthesis is there.  Fuel bounds the recursion. -/
def takeTerm (m : Ovf) : Nat → IW → Res Int
  | 0, _ => .oof
  | n + 1, w =>
    Res.bind
      (match w.peek with
      | (some c, w) =>
        if c = '-' then
          (consumeStr ['-'] w).bind fun _ w =>
            (takeNumber m (arithSpaces w)).bind fun x w => orPanic (m.fit (-x)) fun x => .ok x w
        else if c.isDigit then takeNumber m w
        else if c = '(' then
          (consumeStr ['('] w).bind fun _ w =>
            match takeExpr m n (arithSpaces w) with
            | .ok v w => (consumeStr [')'] w).map fun _ => v
            | .err e w => (consumeStr [')'] w).bind fun _ w => .err e w
            | .panic => .panic
            | .oof => .oof
        else .err (.badBranch w.pos c ('-' :: '(' :: digitChars)) w
      | (none, w) => .err (.endOfStream w.pos) w)
      fun out w => .ok out (arithSpaces w)
/-- `chomp-bench/src/arith/mod.rs:93-105`: the loop of `take_product`. -/
def productLoop (m : Ovf) : Nat → Int → IW → Res Int
  | 0, _, _ => .oof
  | n + 1, out, w =>
    match w.peek with
    | (some c, w) =>
      if c = '*' then
        (consumeStr ['*'] w).bind fun _ w =>
          (takeTerm m n (arithSpaces w)).bind fun x w => orPanic (m.fit (out * x)) fun out => productLoop m n out w
      else if c = '/' then
        (consumeStr ['/'] w).bind fun _ w =>
          (takeTerm m n (arithSpaces w)).bind fun x w => orPanic (divI64 out x) fun out => productLoop m n out w
      else .ok out w
    | (none, w) => .ok out w
/-- `chomp-bench/src/arith/mod.rs:91-107`: `take_product`. -/
def takeProduct (m : Ovf) : Nat → IW → Res Int
  | 0, _ => .oof
  | n + 1, w => (takeTerm m n w).bind fun out w => productLoop m n out w
/-- `chomp-bench/src/arith/mod.rs:111-123`: the loop of `take_expr`. -/
def exprLoop (m : Ovf) : Nat → Int → IW → Res Int
  | 0, _, _ => .oof
  | n + 1, out, w =>
    match w.peek with
    | (some c, w) =>
      if c = '+' then
        (consumeStr ['+'] w).bind fun _ w =>
          (takeProduct m n (arithSpaces w)).bind fun x w => orPanic (m.fit (out + x)) fun out => exprLoop m n out w
      else if c = '-' then
        (consumeStr ['-'] w).bind fun _ w =>
          (takeProduct m n (arithSpaces w)).bind fun x w => orPanic (m.fit (out - x)) fun out => exprLoop m n out w
      else .ok out w
    | (none, w) => .ok out w
/-- `chomp-bench/src/arith/mod.rs:109-125`: `take_expr`. -/
def takeExpr (m : Ovf) : Nat → IW → Res Int
  | 0, _ => .oof
  | n + 1, w => (takeProduct m n w).bind fun out w => exprLoop m n out w
end

/-- `chomp-bench/src/arith/mod.rs:127-134`: `parse_expr`. -/
def arithParse (m : Ovf) (n : Nat) (w : IW) : ParseRes Int :=
  parseWith (takeExpr m n) (arithSpaces w)

end Chomp
