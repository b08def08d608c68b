import Verif.Auto.Lex
import Verif.Grammars.Compiled
import Verif.Lower.Faithful
import Verif.Props.Auto

/-!
# The test grammars of `/repo/tests/full/nibble`

`/repo/tests/full/main.rs` checks that they compile.  Here they are compiled by the model in the kernel.
-/

namespace Chomp

/-- A text from its lines. -/
def textOf : List String → List Char
  | [] => []
  | [l] => l.toList
  | l :: ls => l.toList ++ '\n' :: textOf ls

/-- `tests/full/nibble/sheep.nb` -/
def sheepText : List Char := textOf [
  "let opt x = _ | x;",
  "let plus x = !(/rec/ x . opt rec);",
  "match \"ba\" . plus \"a\";",
  ""]

/-- `tests/full/nibble/ratata.nb` -/
def ratataText : List Char := textOf [
  "let opt x = _ | x;",
  "let plus x = !(/rec/ x . opt rec);",
  "match plus ((\"r\" | \"t\") . \"a\");",
  ""]

/-- `tests/full/nibble/regex.nb` -/
def regexText : List Char := textOf [
  "let opt x = _ | x;",
  "let plus x = !(/plus/ x . opt plus);",
  "let star x = !(/star/ opt (x . star));",
  "",
  "match plus \"a\" . star \"b\";",
  ""]

/-- `tests/full/nibble/regex_fix.nb` -/
def regexFixText : List Char := textOf [
  "let opt x = _ | x;",
  "let ws = !(/star/ opt (\" \" . star));",
  "",
  "match !(/rec/ \"a\" . opt (\".\" . ws . rec));",
  ""]

/-- `tests/full/nibble/nibble_exp.nb` -/
def nibbleExpText : List Char := textOf [
  "let opt x = _ | x;",
  "let plus x = !(/plus/ x . opt plus);",
  "let star x = !(/star/ opt (x . star));",
  "",
  "let Pattern_Whitespace = \"\\n\"|\" \";",
  "",
  "let XID_Start =",
  "    \"a\" | \"b\" | \"c\" | \"d\" | \"e\" | \"f\" | \"g\" | \"h\" |",
  "    \"i\" | \"j\" | \"k\" | \"l\" | \"m\" | \"n\" | \"o\" | \"p\" |",
  "    \"q\" | \"r\" | \"s\" | \"t\" | \"u\" | \"v\" | \"w\" | \"x\" |",
  "    \"y\" | \"z\" |",
  "    \"A\" | \"B\" | \"C\" | \"D\" | \"E\" | \"F\" | \"G\" | \"H\" |",
  "    \"I\" | \"J\" | \"K\" | \"L\" | \"M\" | \"N\" | \"O\" | \"P\" |",
  "    \"Q\" | \"R\" | \"S\" | \"T\" | \"U\" | \"V\" | \"W\" | \"X\" |",
  "    \"Y\" | \"Z\" ;",
  "let XID_Continue =",
  "    XID_Start | \"_\" | \"0\" | \"1\" | \"2\" | \"3\" | \"4\" | \"5\" | \"6\" | \"7\" | \"8\" | \"9\" ;",
  "",
  "let literal_char = XID_Continue;",
  "",
  "let ws = star Pattern_Whitespace;",
  "",
  "let punctuated x p = !(/rec/ x . opt (p . ws . rec));",
  "let list x = \"(\" . ws . !(/rec/ x . opt (\",\" . ws . opt rec)) . \")\";",
  "",
  "let epsilon = \"_\";",
  "let ident = XID_Start . star XID_Continue;",
  "let literal = \"\\\"\" . plus literal_char . \"\\\"\";",
  "let parens expr = \"(\" . ws . expr . \")\";",
  "let fix expr = \"[\" . ws . ident . ws . \"]\" . ws . parens expr;",
  "",
  "let term expr =",
  "      epsilon . ws",
  "    | literal . ws",
  "    | parens expr . ws",
  "    | fix expr . ws",
  "    | ident . ws . opt (list expr . ws)",
  "    ;",
  "",
  "let cat expr = punctuated (term expr) \".\";",
  "let alt expr = punctuated (cat expr) \"|\";",
  "match !alt;"]

/-- The outcome of the compiler on a text: the first type and the table. -/
def compileText (cas : Casing) (fuel : Nat) (text : List Char) : Option (TE × Nat × BState × List Nat) :=
  match lex text with
  | .error _ => none
  | .ok ts =>
    match parseProgram ts with
    | .ok s =>
      match compile cas fuel s with
      | .ok te id st out => some (te, id, st, out)
      | _ => none
    | _ => none

end Chomp
