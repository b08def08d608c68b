import Verif.Nibble.Syntax

/-! Generated by `tools/gen_grammar.py` from `/repo/autonibble/src/lib.rs`. -/

namespace Chomp

/-- `autonibble/src/lib.rs:13-96`: the tokens of the argument of `nibble!`. -/
def autoToks : List Tok :=
  List.flatten [
    [.ident false "let", .ident false "bot", .punct '=', .punct '!', .group true [.punct '/', .ident false "rec",
    .punct '/', .str ['a'], .punct '.', .ident false "rec"], .punct ';'],
    [.ident false "let", .ident false "zero", .punct '=', .punct '/', .ident false "zero", .ident false "suc",
    .punct '/', .ident false "zero", .punct ';'],
    [.ident false "let", .ident false "suc", .ident false "n", .punct '=', .punct '/', .ident false "zero",
    .ident false "suc", .punct '/', .ident false "suc", .group true [.ident false "n", .ident false "zero",
    .ident false "suc"], .punct ';'],
    [.ident false "let", .ident false "opt", .ident false "some", .punct '=', .ident false "_", .punct ':',
    .ident false "None", .punct '|', .ident false "some", .punct ';'],
    [.ident false "let", .ident false "plus", .ident false "iter", .punct '=', .punct '!', .group true [.punct '/',
    .ident false "plus", .punct '/', .ident false "iter", .punct '.', .group true [.ident false "opt",
    .ident false "plus"]], .punct ';'],
    [.ident false "let", .ident false "star", .ident false "iter", .punct '=', .ident false "opt",
    .group true [.ident false "plus", .ident false "iter"], .punct ';'],
    [.ident false "let", .ident false "up_to", .ident false "x", .ident false "n", .punct '=', .ident false "n",
    .ident false "bot", .group true [.punct '/', .ident false "rec", .punct '/', .ident false "x", .punct '.',
    .ident false "opt", .ident false "rec"], .punct ';'],
    [.ident false "let", .ident false "Pattern_Whitespace", .punct '=', .str [Char.ofNat 0x9], .punct '|',
    .str [Char.ofNat 0xa], .punct '|', .str [Char.ofNat 0xb], .punct '|', .str [Char.ofNat 0xc], .punct '|',
    .str [Char.ofNat 0xd], .punct '|', .str [' '], .punct '|', .str [Char.ofNat 0x85], .punct '|',
    .str [Char.ofNat 0x200e], .punct '|', .str [Char.ofNat 0x200f], .punct '|', .str [Char.ofNat 0x2028],
    .punct '|', .str [Char.ofNat 0x2029], .punct ';'],
    [.ident false "let", .ident false "oct_digit", .punct '=', .str ['0'], .punct '|', .str ['1'], .punct '|',
    .str ['2'], .punct '|', .str ['3'], .punct '|', .str ['4'], .punct '|', .str ['5'], .punct '|', .str ['6'],
    .punct '|', .str ['7'], .punct ';'],
    [.ident false "let", .ident false "digit", .punct '=', .str ['0'], .punct '|', .str ['1'], .punct '|',
    .str ['2'], .punct '|', .str ['3'], .punct '|', .str ['4'], .punct '|', .str ['5'], .punct '|', .str ['6'],
    .punct '|', .str ['7'], .punct '|', .str ['8'], .punct '|', .str ['9'], .punct ';'],
    [.ident false "let", .ident false "hex_digit", .punct '=', .str ['0'], .punct '|', .str ['1'], .punct '|',
    .str ['2'], .punct '|', .str ['3'], .punct '|', .str ['4'], .punct '|', .str ['5'], .punct '|', .str ['6'],
    .punct '|', .str ['7'], .punct '|', .str ['8'], .punct '|', .str ['9'], .punct '|', .str ['a'], .punct '|',
    .str ['b'], .punct '|', .str ['c'], .punct '|', .str ['d'], .punct '|', .str ['e'], .punct '|', .str ['f'],
    .punct '|', .str ['A'], .punct '|', .str ['B'], .punct '|', .str ['C'], .punct '|', .str ['D'], .punct '|',
    .str ['E'], .punct '|', .str ['F'], .punct ';'],
    [.ident false "let", .ident false "XID_Start", .punct '=', .str ['a'], .punct '|', .str ['b'], .punct '|',
    .str ['c'], .punct '|', .str ['d'], .punct '|', .str ['e'], .punct '|', .str ['f'], .punct '|', .str ['g'],
    .punct '|', .str ['h'], .punct '|', .str ['i'], .punct '|', .str ['j'], .punct '|', .str ['k'], .punct '|',
    .str ['l'], .punct '|', .str ['m'], .punct '|', .str ['n'], .punct '|', .str ['o'], .punct '|', .str ['p'],
    .punct '|', .str ['q'], .punct '|', .str ['r'], .punct '|', .str ['s'], .punct '|', .str ['t'], .punct '|',
    .str ['u'], .punct '|', .str ['v'], .punct '|', .str ['w'], .punct '|', .str ['x'], .punct '|', .str ['y'],
    .punct '|', .str ['z'], .punct '|', .str ['A'], .punct '|', .str ['B'], .punct '|', .str ['C'], .punct '|',
    .str ['D'], .punct '|', .str ['E'], .punct '|', .str ['F'], .punct '|', .str ['G'], .punct '|', .str ['H'],
    .punct '|', .str ['I'], .punct '|', .str ['J'], .punct '|', .str ['K'], .punct '|', .str ['L'], .punct '|',
    .str ['M'], .punct '|', .str ['N'], .punct '|', .str ['O'], .punct '|', .str ['P'], .punct '|', .str ['Q'],
    .punct '|', .str ['R'], .punct '|', .str ['S'], .punct '|', .str ['T'], .punct '|', .str ['U'], .punct '|',
    .str ['V'], .punct '|', .str ['W'], .punct '|', .str ['X'], .punct '|', .str ['Y'], .punct '|', .str ['Z'],
    .punct ';'],
    [.ident false "let", .ident false "XID_Continue", .punct '=', .ident false "XID_Start", .punct '|', .str ['_'],
    .punct '|', .str ['0'], .punct '|', .str ['1'], .punct '|', .str ['2'], .punct '|', .str ['3'], .punct '|',
    .str ['4'], .punct '|', .str ['5'], .punct '|', .str ['6'], .punct '|', .str ['7'], .punct '|', .str ['8'],
    .punct '|', .str ['9'], .punct ';'],
    [.ident false "let", .ident false "literal_char", .punct '=', .group true [.str [' '], .punct '|', .str ['!'],
    .punct '|', .str ['#'], .punct '|', .str ['$'], .punct '|', .str ['%'], .punct '|', .str ['&'], .punct '|',
    .str [Char.ofNat 0x27], .punct '|', .str ['('], .punct '|', .str [')'], .punct '|', .str ['*'], .punct '|',
    .str ['+'], .punct '|', .str [','], .punct '|', .str ['-'], .punct '|', .str ['.'], .punct '|', .str ['/'],
    .punct '|', .str ['0'], .punct '|', .str ['1'], .punct '|', .str ['2'], .punct '|', .str ['3'], .punct '|',
    .str ['4'], .punct '|', .str ['5'], .punct '|', .str ['6'], .punct '|', .str ['7'], .punct '|', .str ['8'],
    .punct '|', .str ['9'], .punct '|', .str [':'], .punct '|', .str [';'], .punct '|', .str ['<'], .punct '|',
    .str ['='], .punct '|', .str ['>'], .punct '|', .str ['?'], .punct '|', .str ['@'], .punct '|', .str ['A'],
    .punct '|', .str ['B'], .punct '|', .str ['C'], .punct '|', .str ['D'], .punct '|', .str ['E'], .punct '|',
    .str ['F'], .punct '|', .str ['G'], .punct '|', .str ['H'], .punct '|', .str ['I'], .punct '|', .str ['J'],
    .punct '|', .str ['K'], .punct '|', .str ['L'], .punct '|', .str ['M'], .punct '|', .str ['N'], .punct '|',
    .str ['O'], .punct '|', .str ['P'], .punct '|', .str ['Q'], .punct '|', .str ['R'], .punct '|', .str ['S'],
    .punct '|', .str ['T'], .punct '|', .str ['U'], .punct '|', .str ['V'], .punct '|', .str ['W'], .punct '|',
    .str ['X'], .punct '|', .str ['Y'], .punct '|', .str ['Z'], .punct '|', .str ['['], .punct '|', .str [']'],
    .punct '|', .str ['^'], .punct '|', .str ['_'], .punct '|', .str ['`'], .punct '|', .str ['a'], .punct '|',
    .str ['b'], .punct '|', .str ['c'], .punct '|', .str ['d'], .punct '|', .str ['e'], .punct '|', .str ['f'],
    .punct '|', .str ['g'], .punct '|', .str ['h'], .punct '|', .str ['i'], .punct '|', .str ['j'], .punct '|',
    .str ['k'], .punct '|', .str ['l'], .punct '|', .str ['m'], .punct '|', .str ['n'], .punct '|', .str ['o'],
    .punct '|', .str ['p'], .punct '|', .str ['q'], .punct '|', .str ['r'], .punct '|', .str ['s'], .punct '|',
    .str ['t'], .punct '|', .str ['u'], .punct '|', .str ['v'], .punct '|', .str ['w'], .punct '|', .str ['x'],
    .punct '|', .str ['y'], .punct '|', .str ['z'], .punct '|', .str ['{'], .punct '|', .str ['|'], .punct '|',
    .str ['}'], .punct '|', .str ['~']], .punct ':', .ident false "Literal", .punct '|', .str [Char.ofNat 0x5c],
    .punct '.', .group true [.group true [.str ['"'], .punct '|', .str [Char.ofNat 0x27], .punct '|', .str ['n'],
    .punct '|', .str ['r'], .punct '|', .str ['t'], .punct '|', .str [Char.ofNat 0x5c], .punct '|', .str ['0']],
    .punct ':', .ident false "Ascii", .punct '|', .str ['x'], .punct '.', .ident false "oct_digit", .punct '.',
    .ident false "hex_digit", .punct ':', .ident false "Oct", .punct '|', .str ['u', '{'], .punct '.',
    .ident false "up_to", .ident false "hex_digit", .group true [.ident false "suc",
    .group true [.ident false "suc", .group true [.ident false "suc", .group true [.ident false "suc",
    .group true [.ident false "suc", .group true [.ident false "suc", .ident false "zero"]]]]]], .punct '.',
    .str ['}'], .punct ':', .ident false "Unicode"], .punct ':', .ident false "Escape", .punct ';'],
    [.ident false "let", .ident false "ws", .punct '=', .ident false "plus", .ident false "Pattern_Whitespace",
    .punct ';'],
    [.ident false "let", .ident false "ows", .punct '=', .ident false "opt", .ident false "ws", .punct ';'],
    [.ident false "let", .ident false "list", .ident false "inner", .punct '=', .punct '!', .group true [.punct '/',
    .ident false "list", .punct '/', .ident false "inner", .punct '.', .ident false "opt",
    .group true [.ident false "ws", .punct '.', .ident false "opt", .ident false "list"]], .punct ';'],
    [.ident false "let", .ident false "separated", .ident false "inner", .ident false "sep", .punct '=', .punct '!',
    .group true [.punct '/', .ident false "separated", .punct '/', .ident false "inner", .punct '.',
    .ident false "opt", .group true [.ident false "sep", .punct '.', .ident false "ows", .punct '.',
    .ident false "separated"]], .punct ';'],
    [.ident false "let", .ident false "epsilon", .punct '=', .str ['_'], .punct ';'],
    [.ident false "let", .ident false "ident", .punct '=', .ident false "XID_Start", .punct '.',
    .ident false "star", .ident false "XID_Continue", .punct ';'],
    [.ident false "let", .ident false "literal", .punct '=', .str ['"'], .punct '.',
    .group true [.ident false "plus", .ident false "literal_char", .punct ':', .ident false "Contents"], .punct '.',
    .str ['"'], .punct ';'],
    [.ident false "let", .ident false "fix", .ident false "term", .punct '=', .str ['!'], .punct '.',
    .ident false "ows", .punct '.', .ident false "term", .punct ';'],
    [.ident false "let", .ident false "parens", .ident false "expr", .punct '=', .str ['('], .punct '.',
    .ident false "ows", .punct '.', .ident false "expr", .punct '.', .str [')'], .punct ';'],
    [.ident false "let", .ident false "names", .punct '=', .ident false "list", .ident false "ident", .punct ';'],
    [.ident false "let", .ident false "term", .ident false "expr", .punct '=', .punct '!', .group true [.punct '/',
    .ident false "term", .punct '/', .ident false "epsilon", .punct ':', .ident false "Epsilon", .punct '|',
    .ident false "literal", .punct ':', .ident false "Literal", .punct '|', .ident false "parens",
    .ident false "expr", .punct ':', .ident false "Parens", .punct '|', .ident false "fix", .ident false "term",
    .punct ':', .ident false "Fix", .punct '|', .ident false "ident", .punct ':', .ident false "Variable"],
    .punct ';'],
    [.ident false "let", .ident false "label", .punct '=', .str [':'], .punct '.', .ident false "ows", .punct '.',
    .ident false "ident", .punct '.', .ident false "ows", .punct ';'],
    [.ident false "let", .ident false "call", .ident false "expr", .punct '=', .ident false "list",
    .group true [.ident false "term", .ident false "expr"], .punct ';'],
    [.ident false "let", .ident false "cat", .ident false "expr", .punct '=', .ident false "separated",
    .group true [.ident false "call", .ident false "expr"], .str ['.'], .punct ';'],
    [.ident false "let", .ident false "alt", .ident false "expr", .punct '=', .ident false "separated",
    .group true [.ident false "cat", .ident false "expr", .punct '.', .ident false "opt", .ident false "label",
    .punct ':', .ident false "Labelled"], .str ['|'], .punct ';'],
    [.ident false "let", .ident false "lambda", .ident false "expr", .punct '=', .str ['/'], .punct '.',
    .ident false "ows", .punct '.', .ident false "names", .punct '.', .str ['/'], .punct '.', .ident false "ows",
    .punct '.', .ident false "alt", .ident false "expr", .punct ';'],
    [.ident false "let", .ident false "expr", .punct '=', .punct '!', .group true [.punct '/', .ident false "expr",
    .punct '/', .ident false "alt", .ident false "expr", .punct '|', .ident false "lambda", .ident false "expr"],
    .punct ';'],
    [.ident false "let", .ident false "goal", .punct '=', .str ['m', 'a', 't', 'c', 'h'], .punct '.',
    .ident false "ws", .punct '.', .ident false "expr", .punct '.', .str [';'], .punct '.', .ident false "ows",
    .punct ';'],
    [.ident false "let", .ident false "let", .ident false "stmt", .punct '=', .str ['l', 'e', 't'], .punct '.',
    .ident false "ws", .punct '.', .ident false "names", .punct '.', .str ['='], .punct '.', .ident false "ows",
    .punct '.', .ident false "expr", .punct '.', .str [';'], .punct '.', .ident false "ows", .punct '.',
    .ident false "stmt", .punct ';'],
    [.ident false "let", .ident false "stmt", .punct '=', .punct '!', .group true [.punct '/', .ident false "stmt",
    .punct '/', .ident false "let", .ident false "stmt", .punct '|', .ident false "goal"], .punct ';'],
    [.ident false "match", .punct '!', .group true [.punct '/', .ident false "skip", .punct '/',
    .ident false "Pattern_Whitespace", .punct '.', .ident false "skip", .punct '|', .ident false "stmt"],
    .punct ';']]

end Chomp
