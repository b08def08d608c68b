import Verif.Grammars.Compiled
import Verif.Grammars.JsonToks

/-! The table is written by `tools/gen_table.lean.txt` and checked by the kernel below. -/

namespace Chomp

/-- The types generated for the grammar in `chomp-bench/src/json/nibble.rs`: name, definition, names of the fields or variants. -/
def jsonTable : List (String × NodeF Nat × List String) := [
  /- 0 -/ ("Ast1", .alias 182, []),
  /- 1 -/ ("Lit2", .lit [' '], []),
  /- 2 -/ ("Lit3", .lit [Char.ofNat 9], []),
  /- 3 -/ ("Lit4", .lit [Char.ofNat 10], []),
  /- 4 -/ ("Lit5", .lit [Char.ofNat 13], []),
  /- 5 -/ ("WsChar1", .alt [] [1, 2, 3, 4], ["Branch1", "Branch2", "Branch3", "Branch4"]),
  /- 6 -/ ("Box<Ast1>", .box 0, []),
  /- 7 -/ ("Cat8", .cat [5, 6], ["ws_char1", "rec1"]),
  /- 8 -/ ("Value1", .alias 180, []),
  /- 9 -/ ("True1", .lit ['t', 'r', 'u', 'e'], []),
  /- 10 -/ ("False1", .lit ['f', 'a', 'l', 's', 'e'], []),
  /- 11 -/ ("Null1", .lit ['n', 'u', 'l', 'l'], []),
  /- 12 -/ ("Lit13", .lit ['0'], []),
  /- 13 -/ ("Lit14", .lit ['1'], []),
  /- 14 -/ ("Lit15", .lit ['2'], []),
  /- 15 -/ ("Lit16", .lit ['3'], []),
  /- 16 -/ ("Lit17", .lit ['4'], []),
  /- 17 -/ ("Lit18", .lit ['5'], []),
  /- 18 -/ ("Lit19", .lit ['6'], []),
  /- 19 -/ ("Lit20", .lit ['7'], []),
  /- 20 -/ ("Lit21", .lit ['8'], []),
  /- 21 -/ ("Lit22", .lit ['9'], []),
  /- 22 -/ ("Digit191", .alt [] [13, 14, 15, 16, 17, 18, 19, 20, 21], ["Branch1", "Branch2", "Branch3", "Branch4", "Branch5", "Branch6", "Branch7", "Branch8", "Branch9"]),
  /- 23 -/ ("Star1", .alias 28, []),
  /- 24 -/ ("Epsilon", .eps, []),
  /- 25 -/ ("Digit1", .alt [] [12, 22], ["Branch1", "Digit191"]),
  /- 26 -/ ("Box<Star1>", .box 23, []),
  /- 27 -/ ("Some1", .cat [25, 26], ["digit1", "rec1"]),
  /- 28 -/ ("Opt1", .alt [] [24, 27], ["None1", "Some1"]),
  /- 29 -/ ("Cat30", .cat [22, 23], ["digit_1_91", "star1"]),
  /- 30 -/ ("Int1", .alt [] [12, 29], ["Branch1", "Branch2"]),
  /- 31 -/ ("Epsilon", .eps, []),
  /- 32 -/ ("Lit33", .lit ['.'], []),
  /- 33 -/ ("Plus1", .alias 37, []),
  /- 34 -/ ("Epsilon", .eps, []),
  /- 35 -/ ("Box<Plus1>", .box 33, []),
  /- 36 -/ ("Opt2", .alt [] [34, 35], ["None1", "Rec1"]),
  /- 37 -/ ("Plus2", .cat [25, 36], ["digit1", "opt1"]),
  /- 38 -/ ("Some2", .cat [32, 33], ["part1", "plus1"]),
  /- 39 -/ ("Frac1", .alt [] [31, 38], ["None1", "Some1"]),
  /- 40 -/ ("Epsilon", .eps, []),
  /- 41 -/ ("Lit42", .lit ['e'], []),
  /- 42 -/ ("Lit43", .lit ['E'], []),
  /- 43 -/ ("Alt44", .alt [] [41, 42], ["Branch1", "Branch2"]),
  /- 44 -/ ("Epsilon", .eps, []),
  /- 45 -/ ("Lit46", .lit ['+'], []),
  /- 46 -/ ("Lit47", .lit ['-'], []),
  /- 47 -/ ("Some3", .alt [] [45, 46], ["Branch1", "Branch2"]),
  /- 48 -/ ("Opt3", .alt [] [44, 47], ["None1", "Some1"]),
  /- 49 -/ ("Some4", .cat [43, 48, 33], ["part1", "opt1", "plus1"]),
  /- 50 -/ ("Exp1", .alt [] [40, 49], ["None1", "Some1"]),
  /- 51 -/ ("Positive1", .cat [30, 39, 50], ["int1", "frac1", "exp1"]),
  /- 52 -/ ("Epsilon", .eps, []),
  /- 53 -/ ("Frac2", .alt [] [52, 38], ["None1", "Some1"]),
  /- 54 -/ ("Epsilon", .eps, []),
  /- 55 -/ ("Epsilon", .eps, []),
  /- 56 -/ ("Opt4", .alt [] [55, 47], ["None1", "Some1"]),
  /- 57 -/ ("Some5", .cat [43, 56, 33], ["part1", "opt1", "plus1"]),
  /- 58 -/ ("Exp2", .alt [] [54, 57], ["None1", "Some1"]),
  /- 59 -/ ("UnsignedNumber1", .cat [30, 53, 58], ["int1", "frac1", "exp1"]),
  /- 60 -/ ("Negative1", .cat [46, 59], ["part1", "unsigned_number1"]),
  /- 61 -/ ("Number1", .alt [] [51, 60], ["Positive1", "Negative1"]),
  /- 62 -/ ("Lit63", .lit ['"'], []),
  /- 63 -/ ("Star2", .alias 152, []),
  /- 64 -/ ("Epsilon", .eps, []),
  /- 65 -/ ("Lit66", .lit ['!'], []),
  /- 66 -/ ("Lit67", .lit ['#'], []),
  /- 67 -/ ("Lit68", .lit ['$'], []),
  /- 68 -/ ("Lit69", .lit ['%'], []),
  /- 69 -/ ("Lit70", .lit ['&'], []),
  /- 70 -/ ("Lit71", .lit [Char.ofNat 39], []),
  /- 71 -/ ("Lit72", .lit ['('], []),
  /- 72 -/ ("Lit73", .lit [')'], []),
  /- 73 -/ ("Lit74", .lit ['*'], []),
  /- 74 -/ ("Lit75", .lit [','], []),
  /- 75 -/ ("Lit76", .lit ['/'], []),
  /- 76 -/ ("Lit77", .lit [':'], []),
  /- 77 -/ ("Lit78", .lit [';'], []),
  /- 78 -/ ("Lit79", .lit ['<'], []),
  /- 79 -/ ("Lit80", .lit ['='], []),
  /- 80 -/ ("Lit81", .lit ['>'], []),
  /- 81 -/ ("Lit82", .lit ['?'], []),
  /- 82 -/ ("Lit83", .lit ['@'], []),
  /- 83 -/ ("Lit84", .lit ['A'], []),
  /- 84 -/ ("Lit85", .lit ['B'], []),
  /- 85 -/ ("Lit86", .lit ['C'], []),
  /- 86 -/ ("Lit87", .lit ['D'], []),
  /- 87 -/ ("Lit88", .lit ['F'], []),
  /- 88 -/ ("Lit89", .lit ['G'], []),
  /- 89 -/ ("Lit90", .lit ['H'], []),
  /- 90 -/ ("Lit91", .lit ['I'], []),
  /- 91 -/ ("Lit92", .lit ['J'], []),
  /- 92 -/ ("Lit93", .lit ['K'], []),
  /- 93 -/ ("Lit94", .lit ['L'], []),
  /- 94 -/ ("Lit95", .lit ['M'], []),
  /- 95 -/ ("Lit96", .lit ['N'], []),
  /- 96 -/ ("Lit97", .lit ['O'], []),
  /- 97 -/ ("Lit98", .lit ['P'], []),
  /- 98 -/ ("Lit99", .lit ['Q'], []),
  /- 99 -/ ("Lit100", .lit ['R'], []),
  /- 100 -/ ("Lit101", .lit ['S'], []),
  /- 101 -/ ("Lit102", .lit ['T'], []),
  /- 102 -/ ("Lit103", .lit ['U'], []),
  /- 103 -/ ("Lit104", .lit ['V'], []),
  /- 104 -/ ("Lit105", .lit ['W'], []),
  /- 105 -/ ("Lit106", .lit ['X'], []),
  /- 106 -/ ("Lit107", .lit ['Y'], []),
  /- 107 -/ ("Lit108", .lit ['Z'], []),
  /- 108 -/ ("Lit109", .lit ['['], []),
  /- 109 -/ ("Lit110", .lit [']'], []),
  /- 110 -/ ("Lit111", .lit ['^'], []),
  /- 111 -/ ("Lit112", .lit ['_'], []),
  /- 112 -/ ("Lit113", .lit ['`'], []),
  /- 113 -/ ("Lit114", .lit ['a'], []),
  /- 114 -/ ("Lit115", .lit ['b'], []),
  /- 115 -/ ("Lit116", .lit ['c'], []),
  /- 116 -/ ("Lit117", .lit ['d'], []),
  /- 117 -/ ("Lit118", .lit ['f'], []),
  /- 118 -/ ("Lit119", .lit ['g'], []),
  /- 119 -/ ("Lit120", .lit ['h'], []),
  /- 120 -/ ("Lit121", .lit ['i'], []),
  /- 121 -/ ("Lit122", .lit ['j'], []),
  /- 122 -/ ("Lit123", .lit ['k'], []),
  /- 123 -/ ("Lit124", .lit ['l'], []),
  /- 124 -/ ("Lit125", .lit ['m'], []),
  /- 125 -/ ("Lit126", .lit ['n'], []),
  /- 126 -/ ("Lit127", .lit ['o'], []),
  /- 127 -/ ("Lit128", .lit ['p'], []),
  /- 128 -/ ("Lit129", .lit ['q'], []),
  /- 129 -/ ("Lit130", .lit ['r'], []),
  /- 130 -/ ("Lit131", .lit ['s'], []),
  /- 131 -/ ("Lit132", .lit ['t'], []),
  /- 132 -/ ("Lit133", .lit ['u'], []),
  /- 133 -/ ("Lit134", .lit ['v'], []),
  /- 134 -/ ("Lit135", .lit ['w'], []),
  /- 135 -/ ("Lit136", .lit ['x'], []),
  /- 136 -/ ("Lit137", .lit ['y'], []),
  /- 137 -/ ("Lit138", .lit ['z'], []),
  /- 138 -/ ("Lit139", .lit ['{'], []),
  /- 139 -/ ("Lit140", .lit ['|'], []),
  /- 140 -/ ("Lit141", .lit ['}'], []),
  /- 141 -/ ("Lit142", .lit ['~'], []),
  /- 142 -/ ("Literal1", .alt [] [1, 65, 66, 67, 68, 69, 70, 71, 72, 73, 45, 74, 46, 32, 75, 12, 13, 14, 15, 16, 17, 18, 19, 20, 21, 76, 77, 78, 79, 80, 81, 82, 83, 84, 85, 86, 42, 87, 88, 89, 90, 91, 92, 93, 94, 95, 96, 97, 98, 99, 100, 101, 102, 103, 104, 105, 106, 107, 108, 109, 110, 111, 112, 113, 114, 115, 116, 41, 117, 118, 119, 120, 121, 122, 123, 124, 125, 126, 127, 128, 129, 130, 131, 132, 133, 134, 135, 136, 137, 138, 139, 140, 141], ["Branch1", "Branch2", "Branch3", "Branch4", "Branch5", "Branch6", "Branch7", "Branch8", "Branch9", "Branch10",
 "Branch11", "Branch12", "Branch13", "Branch14", "Branch15", "Branch16", "Branch17", "Branch18", "Branch19", "Branch20",
 "Branch21", "Branch22", "Branch23", "Branch24", "Branch25", "Branch26", "Branch27", "Branch28", "Branch29", "Branch30",
 "Branch31", "Branch32", "Branch33", "Branch34", "Branch35", "Branch36", "Branch37", "Branch38", "Branch39", "Branch40",
 "Branch41", "Branch42", "Branch43", "Branch44", "Branch45", "Branch46", "Branch47", "Branch48", "Branch49", "Branch50",
 "Branch51", "Branch52", "Branch53", "Branch54", "Branch55", "Branch56", "Branch57", "Branch58", "Branch59", "Branch60",
 "Branch61", "Branch62", "Branch63", "Branch64", "Branch65", "Branch66", "Branch67", "Branch68", "Branch69", "Branch70",
 "Branch71", "Branch72", "Branch73", "Branch74", "Branch75", "Branch76", "Branch77", "Branch78", "Branch79", "Branch80",
 "Branch81", "Branch82", "Branch83", "Branch84", "Branch85", "Branch86", "Branch87", "Branch88", "Branch89", "Branch90",
 "Branch91", "Branch92", "Branch93"]),
  /- 143 -/ ("Lit144", .lit [Char.ofNat 92], []),
  /- 144 -/ ("Ascii1", .alt [] [62, 143, 75, 114, 117, 125, 129, 131], ["Branch1", "Branch2", "Branch3", "Branch4", "Branch5", "Branch6", "Branch7", "Branch8"]),
  /- 145 -/ ("Hex1", .alt [] [12, 13, 14, 15, 16, 17, 18, 19, 20, 21, 113, 114, 115, 116, 41, 117, 83, 84, 85, 86, 42, 87], ["Branch1", "Branch2", "Branch3", "Branch4", "Branch5", "Branch6", "Branch7", "Branch8", "Branch9", "Branch10",
 "Branch11", "Branch12", "Branch13", "Branch14", "Branch15", "Branch16", "Branch17", "Branch18", "Branch19", "Branch20",
 "Branch21", "Branch22"]),
  /- 146 -/ ("Unicode1", .cat [132, 145, 145, 145, 145], ["part1", "hex1", "hex2", "hex3", "hex4"]),
  /- 147 -/ ("Alt148", .alt [] [144, 146], ["Ascii1", "Unicode1"]),
  /- 148 -/ ("Escape1", .cat [143, 147], []),
  /- 149 -/ ("Char1", .alt [] [142, 148], ["Literal1", "Escape1"]),
  /- 150 -/ ("Box<Star2>", .box 63, []),
  /- 151 -/ ("Some6", .cat [149, 150], ["char1", "rec1"]),
  /- 152 -/ ("Opt5", .alt [] [64, 151], ["None1", "Some1"]),
  /- 153 -/ ("String1", .cat [62, 63, 62], ["part1", "star1", "part3"]),
  /- 154 -/ ("Ws1", .alias 158, []),
  /- 155 -/ ("Epsilon", .eps, []),
  /- 156 -/ ("Box<Ws1>", .box 154, []),
  /- 157 -/ ("Some7", .cat [5, 156], ["ws_char1", "rec1"]),
  /- 158 -/ ("Opt6", .alt [] [155, 157], ["None1", "Some1"]),
  /- 159 -/ ("Epsilon", .eps, []),
  /- 160 -/ ("Sep1", .alias 167, []),
  /- 161 -/ ("Box<Value1>", .box 8, []),
  /- 162 -/ ("Member1", .cat [153, 154, 76, 154, 161, 154], ["key1", "ws1", "part3", "ws2", "value1", "ws3"]),
  /- 163 -/ ("Epsilon", .eps, []),
  /- 164 -/ ("Box<Sep1>", .box 160, []),
  /- 165 -/ ("Some8", .cat [74, 154, 164], ["part1", "ws1", "rec1"]),
  /- 166 -/ ("Opt7", .alt [] [163, 165], ["None1", "Some1"]),
  /- 167 -/ ("Sep2", .cat [162, 166], ["member1", "opt1"]),
  /- 168 -/ ("Opt8", .alt [] [159, 160], ["None1", "Sep1"]),
  /- 169 -/ ("Object1", .cat [138, 154, 168, 140], ["part1", "ws1", "opt1", "part4"]),
  /- 170 -/ ("Epsilon", .eps, []),
  /- 171 -/ ("Sep3", .alias 177, []),
  /- 172 -/ ("Iter1", .cat [161, 154], ["value1", "ws1"]),
  /- 173 -/ ("Epsilon", .eps, []),
  /- 174 -/ ("Box<Sep3>", .box 171, []),
  /- 175 -/ ("Some9", .cat [74, 154, 174], ["part1", "ws1", "rec1"]),
  /- 176 -/ ("Opt9", .alt [] [173, 175], ["None1", "Some1"]),
  /- 177 -/ ("Sep4", .cat [172, 176], ["iter1", "opt1"]),
  /- 178 -/ ("Opt10", .alt [] [170, 171], ["None1", "Sep1"]),
  /- 179 -/ ("Array1", .cat [108, 154, 178, 109], ["part1", "ws1", "opt1", "part4"]),
  /- 180 -/ ("Value2", .alt [] [9, 10, 11, 61, 153, 169, 179], ["True1", "False1", "Null1", "Number1", "String1", "Object1", "Array1"]),
  /- 181 -/ ("Cat182", .cat [8, 154], ["value1", "ws1"]),
  /- 182 -/ ("Ast2", .alt [] [7, 181], ["Branch1", "Branch2"])]

set_option maxRecDepth 100000 in
/-- The model of the compiler, run by the kernel on the tokens of the grammar, generates the table; the grammar has
no sharing conflict and its literals have one ASCII character. -/
theorem json_compiled : (compileToks 60 jsonToks).map (fun p => (p.1.simple, p.2.table)) = some (true, jsonTable) := by
  decide +kernel

end Chomp
