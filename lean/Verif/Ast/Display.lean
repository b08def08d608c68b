import Verif.Driver.Text

/-!
# The texts of expressions

`/repo/src/chomp/ast/mod.rs`: the `Display` implementations of `NamedExpression`, `Expression` and the types in it.
-/

namespace Chomp

/-- `src/chomp/ast/mod.rs:261-274`: `Display for NamedExpression`, for the expressions that are no variables: `t` is the text of the
expression. -/
def Info.wrap (i : Info) (t : List Char) : List Char :=
  match i.name with
  | some n => '(' :: (t ++ (" : ".toList ++ (n.text ++ [')'])))
  | none => t

/-- `src/chomp/ast/mod.rs:127-133`: the parameters of a lambda, separated by commas. -/
def commaNames : List Name → List Char
  | [] => []
  | [n] => n.text
  | n :: l => n.text ++ (", ".toList ++ commaNames l)

mutual
/-- `src/chomp/ast/mod.rs:21-28,51-58,80-84,91-95,104-114,123-136,146-150,184-198,261-274`: `Display for NamedExpression` and
`Display for Expression` in one function, as `NE` is both; a literal is written as it is; a variable with a name is written as its
name. -/
def NE.display : NE → List Char
  | .eps i => i.wrap ['_']
  | .lit i s => i.wrap s
  | .cat i f r => i.wrap ('(' :: (f.display ++ (NE.displayP " . ".toList r ++ [')'])))
  | .alt i f r => i.wrap ('(' :: (f.display ++ (NE.displayP " | ".toList r ++ [')'])))
  | .fix i b => i.wrap ('!' :: b.display)
  | .var i k =>
    match i.name with
    | some n => n.text
    | none => '\'' :: showNat k
  | .call i o a => i.wrap ('(' :: (o.display ++ (NE.displayL a ++ [')'])))
  | .lam i ps b => i.wrap ('/' :: (commaNames ps ++ ("/ ".toList ++ b.display)))
  | .letE i n b c => i.wrap ("let ".toList ++ (n.text ++ (" = ".toList ++ (b.display ++ ("; ".toList ++ c.display)))))
/-- `src/chomp/ast/mod.rs:24-26,54-56`: the loops over `rest`. -/
def NE.displayP (sep : List Char) : List (Nat × NE) → List Char
  | [] => []
  | (_, e) :: l => sep ++ (e.display ++ NE.displayP sep l)
/-- `src/chomp/ast/mod.rs:108-110`: the loop over `args`. -/
def NE.displayL : List NE → List Char
  | [] => []
  | e :: l => ' ' :: (e.display ++ NE.displayL l)
end

end Chomp
