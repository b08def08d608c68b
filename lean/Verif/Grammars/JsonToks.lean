import Verif.Nibble.Syntax

/-! Generated by `tools/gen_grammar.py` from `/repo/chomp-bench/src/json/nibble.rs`. -/

namespace Chomp

/-- `chomp-bench/src/json/nibble.rs:8-70`: the tokens of the argument of `nibble!`. -/
def jsonToks : List Tok :=
  List.flatten [
    [.ident false "let", .ident false "opt", .ident false "some", .punct '=', .ident false "_", .punct ':',
    .ident false "None", .punct '|', .ident false "some", .punct ';'],
    [.ident false "let", .ident false "plus", .ident false "iter", .punct '=', .punct '!', .group true [.punct '/',
    .ident false "rec", .punct '/', .ident false "iter", .punct '.', .ident false "opt", .ident false "rec"],
    .punct ';'],
    [.ident false "let", .ident false "star", .ident false "iter", .punct '=', .punct '!', .group true [.punct '/',
    .ident false "rec", .punct '/', .ident false "opt", .group true [.ident false "iter", .punct '.',
    .ident false "rec"]], .punct ';'],
    [.ident false "let", .ident false "ws_char", .punct '=', .str [' '], .punct '|', .str [Char.ofNat 0x9],
    .punct '|', .str [Char.ofNat 0xa], .punct '|', .str [Char.ofNat 0xd], .punct ';'],
    [.ident false "let", .ident false "ws", .punct '=', .ident false "star", .ident false "ws_char", .punct ';'],
    [.ident false "let", .ident false "sep", .ident false "iter", .punct '=', .punct '!', .group true [.punct '/',
    .ident false "rec", .punct '/', .ident false "iter", .punct '.', .ident false "opt", .group true [.str [','],
    .punct '.', .ident false "ws", .punct '.', .ident false "rec"]], .punct ';'],
    [.ident false "let", .ident false "digit_1_9", .punct '=', .str ['1'], .punct '|', .str ['2'], .punct '|',
    .str ['3'], .punct '|', .str ['4'], .punct '|', .str ['5'], .punct '|', .str ['6'], .punct '|', .str ['7'],
    .punct '|', .str ['8'], .punct '|', .str ['9'], .punct ';'],
    [.ident false "let", .ident false "digit", .punct '=', .str ['0'], .punct '|', .ident false "digit_1_9",
    .punct ';'],
    [.ident false "let", .ident false "unsigned_number", .punct '=', .group true [.group true [.str ['0'],
    .punct '|', .ident false "digit_1_9", .punct '.', .ident false "star", .ident false "digit"], .punct ':',
    .ident false "Int"], .punct '.', .group true [.ident false "opt", .group true [.str ['.'], .punct '.',
    .ident false "plus", .ident false "digit"], .punct ':', .ident false "Frac"], .punct '.',
    .group true [.ident false "opt", .group true [.group true [.str ['e'], .punct '|', .str ['E']], .punct '.',
    .ident false "opt", .group true [.str ['+'], .punct '|', .str ['-']], .punct '.', .ident false "plus",
    .ident false "digit"], .punct ':', .ident false "Exp"], .punct ';'],
    [.ident false "let", .ident false "number", .punct '=', .ident false "unsigned_number", .punct ':',
    .ident false "Positive", .punct '|', .str ['-'], .punct '.', .ident false "unsigned_number", .punct ':',
    .ident false "Negative", .punct ';'],
    [.ident false "let", .ident false "hex", .punct '=', .str ['0'], .punct '|', .str ['1'], .punct '|', .str ['2'],
    .punct '|', .str ['3'], .punct '|', .str ['4'], .punct '|', .str ['5'], .punct '|', .str ['6'], .punct '|',
    .str ['7'], .punct '|', .str ['8'], .punct '|', .str ['9'], .punct '|', .str ['a'], .punct '|', .str ['b'],
    .punct '|', .str ['c'], .punct '|', .str ['d'], .punct '|', .str ['e'], .punct '|', .str ['f'], .punct '|',
    .str ['A'], .punct '|', .str ['B'], .punct '|', .str ['C'], .punct '|', .str ['D'], .punct '|', .str ['E'],
    .punct '|', .str ['F'], .punct ';'],
    [.ident false "let", .ident false "char", .punct '=', .group true [.str [' '], .punct '|', .str ['!'],
    .punct '|', .str ['#'], .punct '|', .str ['$'], .punct '|', .str ['%'], .punct '|', .str ['&'], .punct '|',
    .str [Char.ofNat 0x27], .punct '|', .str ['('], .punct '|', .str [')'], .punct '|', .str ['*'], .punct '|',
    .str ['+'], .punct '|', .str [','], .punct '|', .str ['-'], .punct '|', .str ['.'], .punct '|', .str ['/'],
    .punct '|', .str ['0'], .punct '|', .str ['1'], .punct '|', .str ['2'], .punct '|', .str ['3'], .punct '|',
    .str ['4'], .punct '|', .str ['5'], .punct '|', .str ['6'], .punct '|', .str ['7'], .punct '|', .str ['8'],
    .punct '|', .str ['9'], .punct '|', .str [':'], .punct '|', .str [';'], .punct '|', .str ['<'], .punct '|',
    .str ['='], .punct '|', .str ['>'], .punct '|', .str ['?'], .punct '|', .str ['@'], .punct '|', .str ['A'],
    .punct '|', .str ['B'], .punct '|', .str ['C'], .punct '|', .str ['D'], .punct '|', .str ['E'], .punct '|',
    .str ['F'], .punct '|', .str ['G'], .punct '|', .str ['H'], .punct '|', .str ['I'], .punct '|', .str ['J'],
    .punct '|', .str ['K'], .punct '|', .str ['L'], .punct '|', .str ['M'], .punct '|', .str ['N'], .punct '|',
    .str ['O'], .punct '|', .str ['P'], .punct '|', .str ['Q'], .punct '|', .str ['R'], .punct '|', .str ['S'],
    .punct '|', .str ['T'], .punct '|', .str ['U'], .punct '|', .str ['V'], .punct '|', .str ['W'], .punct '|',
    .str ['X'], .punct '|', .str ['Y'], .punct '|', .str ['Z'], .punct '|', .str ['['], .punct '|', .str [']'],
    .punct '|', .str ['^'], .punct '|', .str ['_'], .punct '|', .str ['`'], .punct '|', .str ['a'], .punct '|',
    .str ['b'], .punct '|', .str ['c'], .punct '|', .str ['d'], .punct '|', .str ['e'], .punct '|', .str ['f'],
    .punct '|', .str ['g'], .punct '|', .str ['h'], .punct '|', .str ['i'], .punct '|', .str ['j'], .punct '|',
    .str ['k'], .punct '|', .str ['l'], .punct '|', .str ['m'], .punct '|', .str ['n'], .punct '|', .str ['o'],
    .punct '|', .str ['p'], .punct '|', .str ['q'], .punct '|', .str ['r'], .punct '|', .str ['s'], .punct '|',
    .str ['t'], .punct '|', .str ['u'], .punct '|', .str ['v'], .punct '|', .str ['w'], .punct '|', .str ['x'],
    .punct '|', .str ['y'], .punct '|', .str ['z'], .punct '|', .str ['{'], .punct '|', .str ['|'], .punct '|',
    .str ['}'], .punct '|', .str ['~']], .punct ':', .ident false "Literal", .punct '|', .str [Char.ofNat 0x5c],
    .punct '.', .group true [.group true [.str ['"'], .punct '|', .str [Char.ofNat 0x5c], .punct '|', .str ['/'],
    .punct '|', .str ['b'], .punct '|', .str ['f'], .punct '|', .str ['n'], .punct '|', .str ['r'], .punct '|',
    .str ['t']], .punct ':', .ident false "Ascii", .punct '|', .str ['u'], .punct '.', .ident false "hex",
    .punct '.', .ident false "hex", .punct '.', .ident false "hex", .punct '.', .ident false "hex", .punct ':',
    .ident false "Unicode"], .punct ':', .ident false "Escape", .punct ';'],
    [.ident false "let", .ident false "string", .punct '=', .str ['"'], .punct '.', .ident false "star",
    .ident false "char", .punct '.', .str ['"'], .punct ';'],
    [.ident false "let", .ident false "member", .ident false "value", .punct '=',
    .group true [.ident false "string", .punct ':', .ident false "Key"], .punct '.', .ident false "ws", .punct '.',
    .str [':'], .punct '.', .ident false "ws", .punct '.', .ident false "value", .punct '.', .ident false "ws",
    .punct ';'],
    [.ident false "let", .ident false "object", .ident false "value", .punct '=', .str ['{'], .punct '.',
    .ident false "ws", .punct '.', .ident false "opt", .group true [.ident false "sep",
    .group true [.ident false "member", .ident false "value"]], .punct '.', .str ['}'], .punct ';'],
    [.ident false "let", .ident false "array", .ident false "value", .punct '=', .str ['['], .punct '.',
    .ident false "ws", .punct '.', .ident false "opt", .group true [.ident false "sep",
    .group true [.ident false "value", .punct '.', .ident false "ws"]], .punct '.', .str [']'], .punct ';'],
    [.ident false "let", .ident false "value", .punct '=', .punct '!', .group true [.punct '/',
    .ident false "value", .punct '/', .str ['t', 'r', 'u', 'e'], .punct ':', .ident false "True", .punct '|',
    .str ['f', 'a', 'l', 's', 'e'], .punct ':', .ident false "False", .punct '|', .str ['n', 'u', 'l', 'l'],
    .punct ':', .ident false "Null", .punct '|', .ident false "number", .punct ':', .ident false "Number",
    .punct '|', .ident false "string", .punct ':', .ident false "String", .punct '|', .ident false "object",
    .ident false "value", .punct ':', .ident false "Object", .punct '|', .ident false "array", .ident false "value",
    .punct ':', .ident false "Array"], .punct ';'],
    [.ident false "match", .punct '!', .group true [.punct '/', .ident false "rec", .punct '/',
    .ident false "ws_char", .punct '.', .ident false "rec", .punct '|', .ident false "value", .punct '.',
    .ident false "ws"], .punct ';']]

end Chomp
