import Verif.Grammars.Compiled

/-! The table is written by `tools/gen_table.lean.txt` and checked by the kernel in `AutoCompiled.lean`. -/

namespace Chomp

/-- The types generated for the grammar in `autonibble/src/lib.rs`: name, definition, names of the fields or variants. -/
def autoTable : List (String × NodeF Nat × List String) := [
  /- 0 -/ ("Ast1", .alias 237, []),
  /- 1 -/ ("Lit2", .lit [Char.ofNat 9], []),
  /- 2 -/ ("Lit3", .lit [Char.ofNat 10], []),
  /- 3 -/ ("Lit4", .lit [Char.ofNat 11], []),
  /- 4 -/ ("Lit5", .lit [Char.ofNat 12], []),
  /- 5 -/ ("Lit6", .lit [Char.ofNat 13], []),
  /- 6 -/ ("Lit7", .lit [' '], []),
  /- 7 -/ ("Lit8", .lit [Char.ofNat 133], []),
  /- 8 -/ ("Lit9", .lit [Char.ofNat 8206], []),
  /- 9 -/ ("Lit10", .lit [Char.ofNat 8207], []),
  /- 10 -/ ("Lit11", .lit [Char.ofNat 8232], []),
  /- 11 -/ ("Lit12", .lit [Char.ofNat 8233], []),
  /- 12 -/ ("PatternWhitespace1", .alt [] [1, 2, 3, 4, 5, 6, 7, 8, 9, 10, 11], ["Branch1", "Branch2", "Branch3", "Branch4", "Branch5", "Branch6", "Branch7", "Branch8", "Branch9", "Branch10",
 "Branch11"]),
  /- 13 -/ ("Box<Ast1>", .box 0, []),
  /- 14 -/ ("Cat15", .cat [12, 13], ["pattern_whitespace1", "skip1"]),
  /- 15 -/ ("Stmt1", .alias 236, []),
  /- 16 -/ ("Lit17", .lit ['l', 'e', 't'], []),
  /- 17 -/ ("Ws1", .alias 21, []),
  /- 18 -/ ("Epsilon", .eps, []),
  /- 19 -/ ("Box<Ws1>", .box 17, []),
  /- 20 -/ ("Opt1", .alt [] [18, 19], ["None1", "Plus1"]),
  /- 21 -/ ("Ws2", .cat [12, 20], ["pattern_whitespace1", "opt1"]),
  /- 22 -/ ("Names1", .alias 102, []),
  /- 23 -/ ("Lit24", .lit ['a'], []),
  /- 24 -/ ("Lit25", .lit ['b'], []),
  /- 25 -/ ("Lit26", .lit ['c'], []),
  /- 26 -/ ("Lit27", .lit ['d'], []),
  /- 27 -/ ("Lit28", .lit ['e'], []),
  /- 28 -/ ("Lit29", .lit ['f'], []),
  /- 29 -/ ("Lit30", .lit ['g'], []),
  /- 30 -/ ("Lit31", .lit ['h'], []),
  /- 31 -/ ("Lit32", .lit ['i'], []),
  /- 32 -/ ("Lit33", .lit ['j'], []),
  /- 33 -/ ("Lit34", .lit ['k'], []),
  /- 34 -/ ("Lit35", .lit ['l'], []),
  /- 35 -/ ("Lit36", .lit ['m'], []),
  /- 36 -/ ("Lit37", .lit ['n'], []),
  /- 37 -/ ("Lit38", .lit ['o'], []),
  /- 38 -/ ("Lit39", .lit ['p'], []),
  /- 39 -/ ("Lit40", .lit ['q'], []),
  /- 40 -/ ("Lit41", .lit ['r'], []),
  /- 41 -/ ("Lit42", .lit ['s'], []),
  /- 42 -/ ("Lit43", .lit ['t'], []),
  /- 43 -/ ("Lit44", .lit ['u'], []),
  /- 44 -/ ("Lit45", .lit ['v'], []),
  /- 45 -/ ("Lit46", .lit ['w'], []),
  /- 46 -/ ("Lit47", .lit ['x'], []),
  /- 47 -/ ("Lit48", .lit ['y'], []),
  /- 48 -/ ("Lit49", .lit ['z'], []),
  /- 49 -/ ("Lit50", .lit ['A'], []),
  /- 50 -/ ("Lit51", .lit ['B'], []),
  /- 51 -/ ("Lit52", .lit ['C'], []),
  /- 52 -/ ("Lit53", .lit ['D'], []),
  /- 53 -/ ("Lit54", .lit ['E'], []),
  /- 54 -/ ("Lit55", .lit ['F'], []),
  /- 55 -/ ("Lit56", .lit ['G'], []),
  /- 56 -/ ("Lit57", .lit ['H'], []),
  /- 57 -/ ("Lit58", .lit ['I'], []),
  /- 58 -/ ("Lit59", .lit ['J'], []),
  /- 59 -/ ("Lit60", .lit ['K'], []),
  /- 60 -/ ("Lit61", .lit ['L'], []),
  /- 61 -/ ("Lit62", .lit ['M'], []),
  /- 62 -/ ("Lit63", .lit ['N'], []),
  /- 63 -/ ("Lit64", .lit ['O'], []),
  /- 64 -/ ("Lit65", .lit ['P'], []),
  /- 65 -/ ("Lit66", .lit ['Q'], []),
  /- 66 -/ ("Lit67", .lit ['R'], []),
  /- 67 -/ ("Lit68", .lit ['S'], []),
  /- 68 -/ ("Lit69", .lit ['T'], []),
  /- 69 -/ ("Lit70", .lit ['U'], []),
  /- 70 -/ ("Lit71", .lit ['V'], []),
  /- 71 -/ ("Lit72", .lit ['W'], []),
  /- 72 -/ ("Lit73", .lit ['X'], []),
  /- 73 -/ ("Lit74", .lit ['Y'], []),
  /- 74 -/ ("Lit75", .lit ['Z'], []),
  /- 75 -/ ("XidStart1", .alt [] [23, 24, 25, 26, 27, 28, 29, 30, 31, 32, 33, 34, 35, 36, 37, 38, 39, 40, 41, 42, 43, 44, 45, 46, 47, 48, 49, 50, 51, 52, 53, 54, 55, 56, 57, 58, 59, 60, 61, 62, 63, 64, 65, 66, 67, 68, 69, 70, 71, 72, 73, 74], ["Branch1", "Branch2", "Branch3", "Branch4", "Branch5", "Branch6", "Branch7", "Branch8", "Branch9", "Branch10",
 "Branch11", "Branch12", "Branch13", "Branch14", "Branch15", "Branch16", "Branch17", "Branch18", "Branch19", "Branch20",
 "Branch21", "Branch22", "Branch23", "Branch24", "Branch25", "Branch26", "Branch27", "Branch28", "Branch29", "Branch30",
 "Branch31", "Branch32", "Branch33", "Branch34", "Branch35", "Branch36", "Branch37", "Branch38", "Branch39", "Branch40",
 "Branch41", "Branch42", "Branch43", "Branch44", "Branch45", "Branch46", "Branch47", "Branch48", "Branch49", "Branch50",
 "Branch51", "Branch52"]),
  /- 76 -/ ("Epsilon", .eps, []),
  /- 77 -/ ("Plus1", .alias 93, []),
  /- 78 -/ ("Lit79", .lit ['_'], []),
  /- 79 -/ ("Lit80", .lit ['0'], []),
  /- 80 -/ ("Lit81", .lit ['1'], []),
  /- 81 -/ ("Lit82", .lit ['2'], []),
  /- 82 -/ ("Lit83", .lit ['3'], []),
  /- 83 -/ ("Lit84", .lit ['4'], []),
  /- 84 -/ ("Lit85", .lit ['5'], []),
  /- 85 -/ ("Lit86", .lit ['6'], []),
  /- 86 -/ ("Lit87", .lit ['7'], []),
  /- 87 -/ ("Lit88", .lit ['8'], []),
  /- 88 -/ ("Lit89", .lit ['9'], []),
  /- 89 -/ ("XidContinue1", .alt [] [75, 78, 79, 80, 81, 82, 83, 84, 85, 86, 87, 88], ["XidStart1", "Branch2", "Branch3", "Branch4", "Branch5", "Branch6", "Branch7", "Branch8", "Branch9", "Branch10",
 "Branch11", "Branch12"]),
  /- 90 -/ ("Epsilon", .eps, []),
  /- 91 -/ ("Box<Plus1>", .box 77, []),
  /- 92 -/ ("Opt2", .alt [] [90, 91], ["None1", "Plus1"]),
  /- 93 -/ ("Plus2", .cat [89, 92], ["xid_continue1", "opt1"]),
  /- 94 -/ ("Star1", .alt [] [76, 77], ["None1", "Plus1"]),
  /- 95 -/ ("Ident1", .cat [75, 94], ["xid_start1", "star1"]),
  /- 96 -/ ("Epsilon", .eps, []),
  /- 97 -/ ("Epsilon", .eps, []),
  /- 98 -/ ("Box<Names1>", .box 22, []),
  /- 99 -/ ("Opt3", .alt [] [97, 98], ["None1", "List1"]),
  /- 100 -/ ("Some1", .cat [17, 99], ["ws1", "opt1"]),
  /- 101 -/ ("Opt4", .alt [] [96, 100], ["None1", "Some1"]),
  /- 102 -/ ("Names2", .cat [95, 101], ["ident1", "opt1"]),
  /- 103 -/ ("Lit104", .lit ['='], []),
  /- 104 -/ ("Epsilon", .eps, []),
  /- 105 -/ ("Ows1", .alt [] [104, 17], ["None1", "Ws1"]),
  /- 106 -/ ("Expr1", .alias 227, []),
  /- 107 -/ ("Alt1", .alias 221, []),
  /- 108 -/ ("Cat1", .alias 203, []),
  /- 109 -/ ("Call1", .alias 196, []),
  /- 110 -/ ("Term1", .alias 189, []),
  /- 111 -/ ("Lit112", .lit ['"'], []),
  /- 112 -/ ("Contents1", .alias 176, []),
  /- 113 -/ ("Lit114", .lit ['!'], []),
  /- 114 -/ ("Lit115", .lit ['#'], []),
  /- 115 -/ ("Lit116", .lit ['$'], []),
  /- 116 -/ ("Lit117", .lit ['%'], []),
  /- 117 -/ ("Lit118", .lit ['&'], []),
  /- 118 -/ ("Lit119", .lit [Char.ofNat 39], []),
  /- 119 -/ ("Lit120", .lit ['('], []),
  /- 120 -/ ("Lit121", .lit [')'], []),
  /- 121 -/ ("Lit122", .lit ['*'], []),
  /- 122 -/ ("Lit123", .lit ['+'], []),
  /- 123 -/ ("Lit124", .lit [','], []),
  /- 124 -/ ("Lit125", .lit ['-'], []),
  /- 125 -/ ("Lit126", .lit ['.'], []),
  /- 126 -/ ("Lit127", .lit ['/'], []),
  /- 127 -/ ("Lit128", .lit [':'], []),
  /- 128 -/ ("Lit129", .lit [';'], []),
  /- 129 -/ ("Lit130", .lit ['<'], []),
  /- 130 -/ ("Lit131", .lit ['>'], []),
  /- 131 -/ ("Lit132", .lit ['?'], []),
  /- 132 -/ ("Lit133", .lit ['@'], []),
  /- 133 -/ ("Lit134", .lit ['['], []),
  /- 134 -/ ("Lit135", .lit [']'], []),
  /- 135 -/ ("Lit136", .lit ['^'], []),
  /- 136 -/ ("Lit137", .lit ['`'], []),
  /- 137 -/ ("Lit138", .lit ['{'], []),
  /- 138 -/ ("Lit139", .lit ['|'], []),
  /- 139 -/ ("Lit140", .lit ['}'], []),
  /- 140 -/ ("Lit141", .lit ['~'], []),
  /- 141 -/ ("Literal1", .alt [] [6, 113, 114, 115, 116, 117, 118, 119, 120, 121, 122, 123, 124, 125, 126, 79, 80, 81, 82, 83, 84, 85, 86, 87, 88, 127, 128, 129, 103, 130, 131, 132, 49, 50, 51, 52, 53, 54, 55, 56, 57, 58, 59, 60, 61, 62, 63, 64, 65, 66, 67, 68, 69, 70, 71, 72, 73, 74, 133, 134, 135, 78, 136, 23, 24, 25, 26, 27, 28, 29, 30, 31, 32, 33, 34, 35, 36, 37, 38, 39, 40, 41, 42, 43, 44, 45, 46, 47, 48, 137, 138, 139, 140], ["Branch1", "Branch2", "Branch3", "Branch4", "Branch5", "Branch6", "Branch7", "Branch8", "Branch9", "Branch10",
 "Branch11", "Branch12", "Branch13", "Branch14", "Branch15", "Branch16", "Branch17", "Branch18", "Branch19", "Branch20",
 "Branch21", "Branch22", "Branch23", "Branch24", "Branch25", "Branch26", "Branch27", "Branch28", "Branch29", "Branch30",
 "Branch31", "Branch32", "Branch33", "Branch34", "Branch35", "Branch36", "Branch37", "Branch38", "Branch39", "Branch40",
 "Branch41", "Branch42", "Branch43", "Branch44", "Branch45", "Branch46", "Branch47", "Branch48", "Branch49", "Branch50",
 "Branch51", "Branch52", "Branch53", "Branch54", "Branch55", "Branch56", "Branch57", "Branch58", "Branch59", "Branch60",
 "Branch61", "Branch62", "Branch63", "Branch64", "Branch65", "Branch66", "Branch67", "Branch68", "Branch69", "Branch70",
 "Branch71", "Branch72", "Branch73", "Branch74", "Branch75", "Branch76", "Branch77", "Branch78", "Branch79", "Branch80",
 "Branch81", "Branch82", "Branch83", "Branch84", "Branch85", "Branch86", "Branch87", "Branch88", "Branch89", "Branch90",
 "Branch91", "Branch92", "Branch93"]),
  /- 142 -/ ("Lit143", .lit [Char.ofNat 92], []),
  /- 143 -/ ("Ascii1", .alt [] [111, 118, 36, 40, 42, 142, 79], ["Branch1", "Branch2", "Branch3", "Branch4", "Branch5", "Branch6", "Branch7"]),
  /- 144 -/ ("OctDigit1", .alt [] [79, 80, 81, 82, 83, 84, 85, 86], ["Branch1", "Branch2", "Branch3", "Branch4", "Branch5", "Branch6", "Branch7", "Branch8"]),
  /- 145 -/ ("HexDigit1", .alt [] [79, 80, 81, 82, 83, 84, 85, 86, 87, 88, 23, 24, 25, 26, 27, 28, 49, 50, 51, 52, 53, 54], ["Branch1", "Branch2", "Branch3", "Branch4", "Branch5", "Branch6", "Branch7", "Branch8", "Branch9", "Branch10",
 "Branch11", "Branch12", "Branch13", "Branch14", "Branch15", "Branch16", "Branch17", "Branch18", "Branch19", "Branch20",
 "Branch21", "Branch22"]),
  /- 146 -/ ("Oct1", .cat [46, 144, 145], ["part1", "oct_digit1", "hex_digit1"]),
  /- 147 -/ ("Lit148", .lit ['u', '{'], []),
  /- 148 -/ ("Epsilon", .eps, []),
  /- 149 -/ ("Epsilon", .eps, []),
  /- 150 -/ ("Epsilon", .eps, []),
  /- 151 -/ ("Epsilon", .eps, []),
  /- 152 -/ ("Epsilon", .eps, []),
  /- 153 -/ ("Epsilon", .eps, []),
  /- 154 -/ ("Zero1", .alias 156, []),
  /- 155 -/ ("Box<Zero1>", .box 154, []),
  /- 156 -/ ("Zero2", .cat [23, 155], ["part1", "rec1"]),
  /- 157 -/ ("Opt5", .alt [] [153, 154], ["None1", "Zero1"]),
  /- 158 -/ ("Suc1", .cat [145, 157], ["hex_digit1", "opt1"]),
  /- 159 -/ ("Opt6", .alt [] [152, 158], ["None1", "Suc1"]),
  /- 160 -/ ("Suc2", .cat [145, 159], ["hex_digit1", "opt1"]),
  /- 161 -/ ("Opt7", .alt [] [151, 160], ["None1", "Suc1"]),
  /- 162 -/ ("Suc3", .cat [145, 161], ["hex_digit1", "opt1"]),
  /- 163 -/ ("Opt8", .alt [] [150, 162], ["None1", "Suc1"]),
  /- 164 -/ ("Suc4", .cat [145, 163], ["hex_digit1", "opt1"]),
  /- 165 -/ ("Opt9", .alt [] [149, 164], ["None1", "Suc1"]),
  /- 166 -/ ("Suc5", .cat [145, 165], ["hex_digit1", "opt1"]),
  /- 167 -/ ("Opt10", .alt [] [148, 166], ["None1", "Suc1"]),
  /- 168 -/ ("UpTo1", .cat [145, 167], ["hex_digit1", "opt1"]),
  /- 169 -/ ("Unicode1", .cat [147, 168, 139], ["part1", "up_to1", "part3"]),
  /- 170 -/ ("Alt171", .alt [] [143, 146, 169], ["Ascii1", "Oct1", "Unicode1"]),
  /- 171 -/ ("Escape1", .cat [142, 170], []),
  /- 172 -/ ("LiteralChar1", .alt [] [141, 171], ["Literal1", "Escape1"]),
  /- 173 -/ ("Epsilon", .eps, []),
  /- 174 -/ ("Box<Contents1>", .box 112, []),
  /- 175 -/ ("Opt11", .alt [] [173, 174], ["None1", "Plus1"]),
  /- 176 -/ ("Contents2", .cat [172, 175], ["literal_char1", "opt1"]),
  /- 177 -/ ("Literal2", .cat [111, 112, 111], ["part1", "contents1", "part3"]),
  /- 178 -/ ("Epsilon", .eps, []),
  /- 179 -/ ("Ows2", .alt [] [178, 17], ["None1", "Ws1"]),
  /- 180 -/ ("Box<Expr1>", .box 106, []),
  /- 181 -/ ("Parens1", .cat [119, 179, 180, 120], ["part1", "ows1", "expr1", "part4"]),
  /- 182 -/ ("Epsilon", .eps, []),
  /- 183 -/ ("Ows3", .alt [] [182, 17], ["None1", "Ws1"]),
  /- 184 -/ ("Box<Term1>", .box 110, []),
  /- 185 -/ ("Fix1", .cat [113, 183, 184], ["part1", "ows1", "term1"]),
  /- 186 -/ ("Epsilon", .eps, []),
  /- 187 -/ ("Star2", .alt [] [186, 77], ["None1", "Plus1"]),
  /- 188 -/ ("Variable1", .cat [75, 187], ["xid_start1", "star1"]),
  /- 189 -/ ("Term2", .alt [] [78, 177, 181, 185, 188], ["Epsilon1", "Literal1", "Parens1", "Fix1", "Variable1"]),
  /- 190 -/ ("Epsilon", .eps, []),
  /- 191 -/ ("Epsilon", .eps, []),
  /- 192 -/ ("Box<Call1>", .box 109, []),
  /- 193 -/ ("Opt12", .alt [] [191, 192], ["None1", "List1"]),
  /- 194 -/ ("Some2", .cat [17, 193], ["ws1", "opt1"]),
  /- 195 -/ ("Opt13", .alt [] [190, 194], ["None1", "Some1"]),
  /- 196 -/ ("Call2", .cat [110, 195], ["term1", "opt1"]),
  /- 197 -/ ("Epsilon", .eps, []),
  /- 198 -/ ("Epsilon", .eps, []),
  /- 199 -/ ("Ows4", .alt [] [198, 17], ["None1", "Ws1"]),
  /- 200 -/ ("Box<Cat1>", .box 108, []),
  /- 201 -/ ("Some3", .cat [125, 199, 200], ["sep1", "ows1", "separated1"]),
  /- 202 -/ ("Opt14", .alt [] [197, 201], ["None1", "Some1"]),
  /- 203 -/ ("Cat2", .cat [109, 202], ["call1", "opt1"]),
  /- 204 -/ ("Epsilon", .eps, []),
  /- 205 -/ ("Epsilon", .eps, []),
  /- 206 -/ ("Ows5", .alt [] [205, 17], ["None1", "Ws1"]),
  /- 207 -/ ("Epsilon", .eps, []),
  /- 208 -/ ("Star3", .alt [] [207, 77], ["None1", "Plus1"]),
  /- 209 -/ ("Ident2", .cat [75, 208], ["xid_start1", "star1"]),
  /- 210 -/ ("Epsilon", .eps, []),
  /- 211 -/ ("Ows6", .alt [] [210, 17], ["None1", "Ws1"]),
  /- 212 -/ ("Label1", .cat [127, 206, 209, 211], ["part1", "ows1", "ident1", "ows2"]),
  /- 213 -/ ("Opt15", .alt [] [204, 212], ["None1", "Label1"]),
  /- 214 -/ ("Labelled1", .cat [108, 213], ["cat1", "opt1"]),
  /- 215 -/ ("Epsilon", .eps, []),
  /- 216 -/ ("Epsilon", .eps, []),
  /- 217 -/ ("Ows7", .alt [] [216, 17], ["None1", "Ws1"]),
  /- 218 -/ ("Box<Alt1>", .box 107, []),
  /- 219 -/ ("Some4", .cat [138, 217, 218], ["sep1", "ows1", "separated1"]),
  /- 220 -/ ("Opt16", .alt [] [215, 219], ["None1", "Some1"]),
  /- 221 -/ ("Alt2", .cat [214, 220], ["labelled1", "opt1"]),
  /- 222 -/ ("Epsilon", .eps, []),
  /- 223 -/ ("Ows8", .alt [] [222, 17], ["None1", "Ws1"]),
  /- 224 -/ ("Epsilon", .eps, []),
  /- 225 -/ ("Ows9", .alt [] [224, 17], ["None1", "Ws1"]),
  /- 226 -/ ("Lambda1", .cat [126, 223, 22, 126, 225, 107], ["part1", "ows1", "names1", "part4", "ows2", "alt1"]),
  /- 227 -/ ("Expr2", .alt [] [107, 226], ["Alt1", "Lambda1"]),
  /- 228 -/ ("Epsilon", .eps, []),
  /- 229 -/ ("Ows10", .alt [] [228, 17], ["None1", "Ws1"]),
  /- 230 -/ ("Box<Stmt1>", .box 15, []),
  /- 231 -/ ("Let1", .cat [16, 17, 22, 103, 105, 106, 128, 229, 230], ["part1", "ws1", "names1", "part4", "ows1", "expr1", "part7", "ows2", "stmt1"]),
  /- 232 -/ ("Lit233", .lit ['m', 'a', 't', 'c', 'h'], []),
  /- 233 -/ ("Epsilon", .eps, []),
  /- 234 -/ ("Ows11", .alt [] [233, 17], ["None1", "Ws1"]),
  /- 235 -/ ("Goal1", .cat [232, 17, 106, 128, 234], ["part1", "ws1", "expr1", "part4", "ows1"]),
  /- 236 -/ ("Stmt2", .alt [] [231, 235], ["Let1", "Goal1"]),
  /- 237 -/ ("Ast2", .alt [] [14, 15], ["Branch1", "Stmt1"])]

end Chomp
