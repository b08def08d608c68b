import Verif.Nibble.Syntax

/-! Generated by `tools/gen_grammar.py` from `/repo/chomp-bench/src/arith/nibble.rs`. -/

namespace Chomp

/-- `chomp-bench/src/arith/nibble.rs:3-22`: the tokens of the argument of `nibble!`. -/
def arithToks : List Tok :=
  List.flatten [
    [.ident false "let", .ident false "opt", .ident false "some", .punct '=', .ident false "_", .punct ':',
    .ident false "None", .punct '|', .ident false "some", .punct ';'],
    [.ident false "let", .ident false "plus", .ident false "iter", .punct '=', .punct '!', .group true [.punct '/',
    .ident false "plus", .punct '/', .ident false "iter", .punct '.', .group true [.ident false "opt",
    .ident false "plus"]], .punct ';'],
    [.ident false "let", .ident false "star", .ident false "iter", .punct '=', .ident false "opt",
    .group true [.ident false "plus", .ident false "iter"], .punct ';'],
    [.ident false "let", .ident false "ws", .punct '=', .ident false "star", .str [' '], .punct ';'],
    [.ident false "let", .ident false "list", .ident false "inner", .ident false "p", .punct '=', .punct '!',
    .group true [.punct '/', .ident false "list", .punct '/', .ident false "inner", .punct '.', .ident false "opt",
    .group true [.ident false "p", .punct '.', .ident false "ws", .punct '.', .ident false "list"]], .punct ';'],
    [.ident false "let", .ident false "digit", .punct '=', .str ['0'], .punct '|', .str ['1'], .punct '|',
    .str ['2'], .punct '|', .str ['3'], .punct '|', .str ['4'], .punct '|', .str ['5'], .punct '|', .str ['6'],
    .punct '|', .str ['7'], .punct '|', .str ['8'], .punct '|', .str ['9'], .punct ';'],
    [.ident false "let", .ident false "number", .punct '=', .ident false "plus", .ident false "digit", .punct ';'],
    [.ident false "let", .ident false "term", .ident false "expr", .punct '=',
    .group true [.group true [.ident false "number", .punct ':', .ident false "Pos", .punct '|', .str ['-'],
    .punct '.', .ident false "ws", .punct '.', .ident false "number", .punct ':', .ident false "Neg", .punct '|',
    .str ['('], .punct '.', .ident false "ws", .punct '.', .ident false "expr", .punct '.', .str [')'], .punct ':',
    .ident false "Parens"], .punct ':', .ident false "RawTerm"], .punct '.', .ident false "ws", .punct ';'],
    [.ident false "let", .ident false "prod", .ident false "expr", .punct '=', .ident false "list",
    .group true [.ident false "term", .ident false "expr"], .group true [.str ['*'], .punct '|', .str ['/']],
    .punct ';'],
    [.ident false "let", .ident false "arith", .ident false "expr", .punct '=', .ident false "list",
    .group true [.ident false "prod", .ident false "expr"], .group true [.str ['+'], .punct '|', .str ['-']],
    .punct ';'],
    [.ident false "match", .punct '!', .group true [.punct '/', .ident false "rec", .punct '/', .str [' '],
    .punct '.', .ident false "rec", .punct '|', .punct '!', .ident false "arith"], .punct ';']]

end Chomp
