import Verif.Grammars.Compiled
import Verif.Grammars.ArithToks

/-! The table is written by `tools/gen_table.lean.txt` and checked by the kernel below. -/

namespace Chomp

/-- The types generated for the grammar in `chomp-bench/src/arith/nibble.rs`: name, definition, names of the fields or variants. -/
def arithTable : List (String × NodeF Nat × List String) := [
  /- 0 -/ ("Ast1", .alias 66, []),
  /- 1 -/ ("Lit2", .lit [' '], []),
  /- 2 -/ ("Box<Ast1>", .box 0, []),
  /- 3 -/ ("Cat4", .cat [1, 2], ["part1", "rec1"]),
  /- 4 -/ ("Fix5", .alias 5, []),
  /- 5 -/ ("Arith1", .alias 65, []),
  /- 6 -/ ("Prod1", .alias 56, []),
  /- 7 -/ ("Pos1", .alias 22, []),
  /- 8 -/ ("Lit9", .lit ['0'], []),
  /- 9 -/ ("Lit10", .lit ['1'], []),
  /- 10 -/ ("Lit11", .lit ['2'], []),
  /- 11 -/ ("Lit12", .lit ['3'], []),
  /- 12 -/ ("Lit13", .lit ['4'], []),
  /- 13 -/ ("Lit14", .lit ['5'], []),
  /- 14 -/ ("Lit15", .lit ['6'], []),
  /- 15 -/ ("Lit16", .lit ['7'], []),
  /- 16 -/ ("Lit17", .lit ['8'], []),
  /- 17 -/ ("Lit18", .lit ['9'], []),
  /- 18 -/ ("Digit1", .alt [] [8, 9, 10, 11, 12, 13, 14, 15, 16, 17], ["Branch1", "Branch2", "Branch3", "Branch4", "Branch5", "Branch6", "Branch7", "Branch8", "Branch9", "Branch10"]),
  /- 19 -/ ("Epsilon", .eps, []),
  /- 20 -/ ("Box<Pos1>", .box 7, []),
  /- 21 -/ ("Opt1", .alt [] [19, 20], ["None1", "Plus1"]),
  /- 22 -/ ("Pos2", .cat [18, 21], ["digit1", "opt1"]),
  /- 23 -/ ("Lit24", .lit ['-'], []),
  /- 24 -/ ("Epsilon", .eps, []),
  /- 25 -/ ("Plus1", .alias 29, []),
  /- 26 -/ ("Epsilon", .eps, []),
  /- 27 -/ ("Box<Plus1>", .box 25, []),
  /- 28 -/ ("Opt2", .alt [] [26, 27], ["None1", "Plus1"]),
  /- 29 -/ ("Plus2", .cat [1, 28], ["iter1", "opt1"]),
  /- 30 -/ ("Ws1", .alt [] [24, 25], ["None1", "Plus1"]),
  /- 31 -/ ("Number1", .alias 35, []),
  /- 32 -/ ("Epsilon", .eps, []),
  /- 33 -/ ("Box<Number1>", .box 31, []),
  /- 34 -/ ("Opt3", .alt [] [32, 33], ["None1", "Plus1"]),
  /- 35 -/ ("Number2", .cat [18, 34], ["digit1", "opt1"]),
  /- 36 -/ ("Neg1", .cat [23, 30, 31], ["part1", "ws1", "number1"]),
  /- 37 -/ ("Lit38", .lit ['('], []),
  /- 38 -/ ("Epsilon", .eps, []),
  /- 39 -/ ("Ws2", .alt [] [38, 25], ["None1", "Plus1"]),
  /- 40 -/ ("Box<Fix5>", .box 4, []),
  /- 41 -/ ("Lit42", .lit [')'], []),
  /- 42 -/ ("Parens1", .cat [37, 39, 40, 41], ["part1", "ws1", "expr1", "part4"]),
  /- 43 -/ ("RawTerm1", .alt [] [7, 36, 42], ["Pos1", "Neg1", "Parens1"]),
  /- 44 -/ ("Epsilon", .eps, []),
  /- 45 -/ ("Ws3", .alt [] [44, 25], ["None1", "Plus1"]),
  /- 46 -/ ("Term1", .cat [43, 45], ["raw_term1", "ws1"]),
  /- 47 -/ ("Epsilon", .eps, []),
  /- 48 -/ ("Lit49", .lit ['*'], []),
  /- 49 -/ ("Lit50", .lit ['/'], []),
  /- 50 -/ ("P1", .alt [] [48, 49], ["Branch1", "Branch2"]),
  /- 51 -/ ("Epsilon", .eps, []),
  /- 52 -/ ("Ws4", .alt [] [51, 25], ["None1", "Plus1"]),
  /- 53 -/ ("Box<Prod1>", .box 6, []),
  /- 54 -/ ("Some1", .cat [50, 52, 53], ["p1", "ws1", "list1"]),
  /- 55 -/ ("Opt4", .alt [] [47, 54], ["None1", "Some1"]),
  /- 56 -/ ("Prod2", .cat [46, 55], ["term1", "opt1"]),
  /- 57 -/ ("Epsilon", .eps, []),
  /- 58 -/ ("Lit59", .lit ['+'], []),
  /- 59 -/ ("P2", .alt [] [58, 23], ["Branch1", "Branch2"]),
  /- 60 -/ ("Epsilon", .eps, []),
  /- 61 -/ ("Ws5", .alt [] [60, 25], ["None1", "Plus1"]),
  /- 62 -/ ("Box<Arith1>", .box 5, []),
  /- 63 -/ ("Some2", .cat [59, 61, 62], ["p1", "ws1", "list1"]),
  /- 64 -/ ("Opt5", .alt [] [57, 63], ["None1", "Some1"]),
  /- 65 -/ ("Arith2", .cat [6, 64], ["prod1", "opt1"]),
  /- 66 -/ ("Ast2", .alt [] [3, 4], ["Branch1", "Branch2"])]

set_option maxRecDepth 100000 in
/-- The model of the compiler, run by the kernel on the tokens of the grammar, generates the table; the grammar has
no sharing conflict and its literals have one ASCII character. -/
theorem arith_compiled : (compileToks 60 arithToks).map (fun p => (p.1.simple, p.2.table)) = some (true, arithTable) := by
  decide +kernel

end Chomp
