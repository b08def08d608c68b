import Verif.Chewed.Text
import Verif.Nibble.Model
import Verif.Typed.Model

/-!
# The texts of the errors of the compiler

The `Display` implementations of `Name`, `ConvertError`, `ReductionError` and `TypeError`.
-/

namespace Chomp

/-- `src/chomp/name.rs:92-99`: `Display for Content`; an identifier is printed with its `r#`, if it has one. -/
def Content.text : Content → List Char
  | .spanned true s _ => "r#".toList ++ s.toList
  | .spanned false s _ => s.toList
  | .spanless s => s.toList

/-- `src/chomp/name.rs:213-217`: `Display for Name`. -/
def Name.text (n : Name) : List Char := n.content.text

/-- `src/nibble/convert.rs:81-98`: `Display for ConvertError`. -/
def ConvErr.text : ConvErr → List Char
  | .undeclaredName n => "undeclared name: `".toList ++ (n.text ++ ['`'])
  | .emptyCat _ => "concatenation has no elements".toList
  | .emptyAlt _ => "alternation has no elements".toList
  | .emptyCall _ => "call has no function".toList

/-- `src/chomp/ast/error.rs:39-47`: the text of `WrongArgCount`, given the numbers of parameters and arguments. -/
def argCountText (m n : Nat) : List Char :=
  if m = 1 then "this function takes 1 argument but ".toList ++ (showNat n ++ " were supplied".toList)
  else if n = 1 then "this function takes ".toList ++ (showNat m ++ " arguments but 1 was supplied".toList)
  else "this function takes ".toList ++ (showNat m ++ (" arguments but ".toList ++ (showNat n ++ " were supplied".toList)))

/-- The number of parameters of a lambda. -/
def NE.paramCount : NE → Nat
  | .lam _ ps _ => ps.length
  | _ => 0

/-- `src/chomp/ast/error.rs:33-50`: `Display for ReductionError`.  The field `lambda` of `wrongArgCount` is a lambda in
Rust, and always one here (`C66_call_message_true`). -/
def RErr.text : RErr → List Char
  | .callNotAFunction _ _ => "call expected a function".toList
  | .wrongArgCount f args _ => argCountText f.paramCount args.length

/-- `src/chomp/typed/error.rs:21-34`: `Display for VariableError`. -/
def variableText (err : VarErr) (index : Nat) (name : Option Name) : List Char :=
  (match err with
    | .free => "unbound variable: ".toList
    | .guarded => "usage of guarded variable: ".toList) ++
  match name with
  | some n => '`' :: (n.text ++ ['`'])
  | none => '\'' :: showNat index

/-- `src/chomp/typed/error.rs:59-68,94-101,156-180`: `Display` for `TypeError`, `CatError` and `AltError`. -/
def TErr.text : TErr → List Char
  | .firstNullable _ _ => "first part of concatenation is nullable".toList
  | .firstFlastOverlap _ _ _ => "first set overlaps with preceding flast set".toList
  | .bothNullable _ _ _ => "both branches are nullable".toList
  | .firstOverlap _ _ _ => "first sets of both branches overlap".toList
  | .variable err index _ name => variableText err index name
  | .expectedLambda _ => "expected a lambda expression".toList
  | .unexpectedCall _ => "unexpected call".toList
  | .unexpectedLambda _ => "unexpected lambda".toList
  | .unexpectedLet _ => "unexpected let".toList

end Chomp
