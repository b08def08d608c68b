import Verif.Grammars.AutoTable
import Verif.Bench.ArithNibble
import Verif.Nibble.Model

/-!
# Conversion of the trees of the parser generated from nibble's own grammar: `/repo/autonibble/src/lib.rs`

Values of the generated types are trees, as in `Bench/ArithNibble.lean`: a struct is the list of its fields, an enum
the index of the variant and its content, `Box` the boxed value.  `none` is a panic.  A tree that is not of the type of
the argument of a conversion also gives `none`: such arguments do not exist in Rust.  All spans are
`Span::call_site()`, i.e. 0.
-/

namespace Chomp

/-- A hexadecimal digit, as `char::to_digit(16)` of the standard library. -/
def hexDigit? (c : Char) : Option Nat :=
  if '0' ≤ c ∧ c ≤ '9' then some (c.toNat - '0'.toNat)
  else if 'a' ≤ c ∧ c ≤ 'f' then some (c.toNat - 'a'.toNat + 10)
  else if 'A' ≤ c ∧ c ≤ 'F' then some (c.toNat - 'A'.toNat + 10)
  else none

/-- Digits most significant first. -/
def hexFold : List Char → Nat → Option Nat
  | [], acc => some acc
  | c :: r, acc => (hexDigit? c).bind fun d => hexFold r (acc * 16 + d)

/-- `u32::from_str_radix(s, 16)` of the standard library, for strings without a sign (there is none in the strings
given to it here); `none` is an error. -/
def u32FromHex (s : List Char) : Option Nat :=
  if s.isEmpty then none
  else (hexFold s 0).bind fun v => if v < 4294967296 then some v else none

/-- `u32.try_into::<char>()` of the standard library: the Unicode scalar values. -/
def charFromU32 (v : Nat) : Option Char := if h : v.isValidChar then some (Char.ofNatAux v h) else none

/-- `autonibble/src/lib.rs:438-450`: `Ascii1::escape`, by variant. -/
def autoAscii : Nat → Option Char
  | 0 => some '"'
  | 1 => some '\''
  | 2 => some '\n'
  | 3 => some '\r'
  | 4 => some '\t'
  | 5 => some '\\'
  | 6 => some (Char.ofNat 0)
  | _ => none

/-- `autonibble/src/lib.rs:428-436,452-466`: `From<Escape1>`, `From<Oct1>` and `From<Unicode1>` for `char`.  The argument
is the field `1` of `Escape1`; variants of `Alt171`: `Ascii1`, `Oct1`, `Unicode1`; fields of `Oct1`: `part1`,
`oct_digit1`, `hex_digit1`; fields of `Unicode1`: `part1`, `up_to1`, `part3`. -/
def autoEscape : Tree → Option Char
  | .alt 0 (.alt k _) => autoAscii k
  | .alt 1 (.cat [_, o, h]) =>
    o.toChar.bind fun a => h.toChar.bind fun b => (u32FromHex [a, b]).bind charFromU32
  | .alt 2 (.cat [_, u, _]) => (u32FromHex u.display).bind charFromU32
  | _ => none

/-- `autonibble/src/lib.rs:419-426`: `From<LiteralChar1> for char`.  Variants: `Literal1`, `Escape1`. -/
def autoChar : Tree → Option Char
  | .alt 0 c => c.toChar
  | .alt 1 (.cat [_, e]) => autoEscape e
  | _ => none

/-- `autonibble/src/lib.rs:394-417`: `IntoIterator for Contents1` and `Iterator for Opt11`.  Fields of `Contents1`:
`literal_char1`, `opt1`; variants of `Opt11`: `None1`, `Plus1` (boxed `Contents1`). -/
def autoContents : Tree → Option (List Char)
  | .cat [c, .alt 0 _] => (autoChar c).map fun c => [c]
  | .cat [c, .alt 1 (.box r)] => (autoChar c).bind fun c => (autoContents r).map (c :: ·)
  | _ => none

/-- `autonibble/src/lib.rs:468-484`: `From<Variable1>`, `From<Ident2>` and `From<Ident1>` for `Content`. -/
def autoContent (t : Tree) : Content := .spanless (String.ofList t.display)

/-- `autonibble/src/lib.rs:319-344`: `IntoIterator for Names1` and `Iterator for Opt3`.  Fields of `Names1`: `ident1`, `opt1`;
variants of `Opt4`: `None1`, `Some1`, whose content has the fields `ws1`, `opt1`; variants of `Opt3`: `None1`, `List1` (boxed
`Names1`).  The empty list stands for trees that are not of the type. -/
def autoNames : Tree → List Content
  | .cat [i, .alt 0 _] => [autoContent i]
  | .cat [i, .alt 1 (.cat [_, .alt 0 _])] => [autoContent i]
  | .cat [i, .alt 1 (.cat [_, .alt 1 (.box r)])] => autoContent i :: autoNames r
  | _ => []

/-- `autonibble/src/lib.rs:304-317`: `Convert for Variable1`. -/
def autoVariable (t : Tree) (c : Ctx) : Conv NE :=
  let name := Name.newVariable (autoContent t)
  match c.lookup name with
  | none => some (.error (.undeclaredName name), c)
  | some k => some (.ok (.var ⟨some name, 0⟩ k), c)

mutual
/-- `autonibble/src/lib.rs:270-302`: `Convert` for `Term1` and `Fix1`.  Variants of `Term1`: `Epsilon1`, `Literal1`, `Parens1`,
`Fix1`, `Variable1`; fields of `Literal2`: `part1`, `contents1`, `part3`; of `Parens1`: `part1`, `ows1`, `expr1` (boxed), `part4`;
of `Fix1`: `part1`, `ows1`, `term1` (boxed). -/
def autoTerm : Tree → Ctx → Conv NE
  | .alt 0 _, c => some (.ok (.eps ⟨none, 0⟩), c)
  | .alt 1 (.cat [_, l, _]), c =>
    match autoContents l with
    | none => none
    | some s => some (.ok (.lit ⟨none, 0⟩ s), c)
  | .alt 2 (.cat [_, _, .box e, _]), c => autoExpr e c
  | .alt 3 (.cat [_, _, .box t]), c => (autoTerm t c).bind fun e c => some (.ok (.fix ⟨none, 0⟩ e), c)
  | .alt 4 v, c => autoVariable v c
  | _, _ => none
/-- `autonibble/src/lib.rs:246-268`: `Convert for Call1`.  Fields: `term1`, `opt1`. -/
def autoCall : Tree → Ctx → Conv NE
  | .cat [t, o], c =>
    (autoTerm t c).bind fun on c => (autoArgs o c).bind fun args c =>
      match args with
      | [] => some (.ok on, c)
      | args => some (.ok (.call ⟨none, 0⟩ on args), c)
  | _, _ => none
/-- `autonibble/src/lib.rs:249-253,376-392`: the arguments of a call, with the iterator `Opt13`; collecting into a `Result`
stops at the first error.  Variants of `Opt13`: `None1`, `Some1`, whose content has the fields `ws1`, `opt1`; variants of
`Opt12`: `None1`, `List1` (boxed `Call1`). -/
def autoArgs : Tree → Ctx → Conv (List NE)
  | .alt 0 _, c => some (.ok [], c)
  | .alt 1 (.cat [_, .alt 0 _]), c => some (.ok [], c)
  | .alt 1 (.cat [_, .alt 1 (.box (.cat [t, o]))]), c =>
    (autoTerm t c).bind fun e c => (autoArgs o c).bind fun es c => some (.ok (e :: es), c)
  | _, _ => none
/-- `autonibble/src/lib.rs:222-244`: `Convert for Cat1`.  Fields: `call1`, `opt1`. -/
def autoCat : Tree → Ctx → Conv NE
  | .cat [x, o], c =>
    (autoCall x c).bind fun first c => (autoCalls o c).bind fun rest c =>
      match rest with
      | [] => some (.ok first, c)
      | rest => some (.ok (.cat ⟨none, 0⟩ first rest), c)
  | _, _ => none
/-- `autonibble/src/lib.rs:225-229,361-374`: the remaining parts, with the iterator `Opt14`.  Variants of `Opt14`: `None1`,
`Some1`, whose content has the fields `sep1`, `ows1`, `separated1` (boxed `Cat1`). -/
def autoCalls : Tree → Ctx → Conv (List (Nat × NE))
  | .alt 0 _, c => some (.ok [], c)
  | .alt 1 (.cat [_, _, .box (.cat [x, o])]), c =>
    (autoCall x c).bind fun e c => (autoCalls o c).bind fun es c => some (.ok ((0, e) :: es), c)
  | _, _ => none
/-- `autonibble/src/lib.rs:206-220`: `Convert for Labelled1`.  Fields: `cat1`, `opt1`; variants of `Opt15`: `None1`, `Label1`,
with the fields `part1`, `ows1`, `ident1`, `ows2`. -/
def autoLabelled : Tree → Ctx → Conv NE
  | .cat [x, .alt 0 _], c =>
    (autoCat x c).bind fun named c =>
      some (.ok (named.setInfo ⟨Name.merge none named.info.name, named.info.span⟩), c)
  | .cat [x, .alt 1 (.cat [_, _, i, _])], c =>
    (autoCat x c).bind fun named c =>
      some (.ok (named.setInfo ⟨Name.merge (some (Name.newLabel (autoContent i))) named.info.name, named.info.span⟩), c)
  | _, _ => none
/-- `autonibble/src/lib.rs:182-204`: `Convert for Alt1`.  Fields: `labelled1`, `opt1`. -/
def autoAlt : Tree → Ctx → Conv NE
  | .cat [x, o], c =>
    (autoLabelled x c).bind fun first c => (autoLabelleds o c).bind fun rest c =>
      match rest with
      | [] => some (.ok first, c)
      | rest => some (.ok (.alt ⟨none, 0⟩ first rest), c)
  | _, _ => none
/-- `autonibble/src/lib.rs:185-189,346-359`: the remaining alternatives, with the iterator `Opt16`.  Variants of `Opt16`:
`None1`, `Some1`, whose content has the fields `sep1`, `ows1`, `separated1` (boxed `Alt1`). -/
def autoLabelleds : Tree → Ctx → Conv (List (Nat × NE))
  | .alt 0 _, c => some (.ok [], c)
  | .alt 1 (.cat [_, _, .box (.cat [x, o])]), c =>
    (autoLabelled x c).bind fun e c => (autoLabelleds o c).bind fun es c => some (.ok ((0, e) :: es), c)
  | _, _ => none
/-- `autonibble/src/lib.rs:156-180`: `Convert` for `Expr1` and `Lambda1`.  Variants of `Expr1`: `Alt1`, `Lambda1`, with the
fields `part1`, `ows1`, `names1`, `part4`, `ows2`, `alt1`. -/
def autoExpr : Tree → Ctx → Conv NE
  | .alt 0 a, c => autoAlt a c
  | .alt 1 (.cat [_, _, names, _, _, a]), c =>
    let args := (autoNames names).map Name.newVariable
    (c.withVariables args (autoAlt a)).bind fun inner c => some (.ok (.lam ⟨none, 0⟩ args inner), c)
  | _, _ => none
end

/-- `autonibble/src/lib.rs:119-134`: the bound expression of a let statement; `names` are those after the first. -/
def autoBound (names : List Content) (e : Tree) (c : Ctx) : Conv NE :=
  match names with
  | [] => autoExpr e c
  | names =>
    let args := names.map Name.newVariable
    (c.withVariables args (autoExpr e)).bind fun inner c => some (.ok (.lam ⟨none, 0⟩ args inner), c)

/-- `autonibble/src/lib.rs:113-154`: `Convert for Stmt1`.  Variants of `Stmt1`: `Let1`, with the fields `part1`, `ws1`, `names1`,
`part4`, `ows1`, `expr1`, `part7`, `ows2`, `stmt1` (boxed), and `Goal1`, with the fields `part1`, `ws1`, `expr1`, `part4`, `ows1`. -/
def autoStmt : Tree → Ctx → Conv NE
  | .alt 0 (.cat [_, _, names, _, _, e, _, _, .box s]), c =>
    match autoNames names with
    | [] => none
    | x :: args =>
      let name := Name.newLet x
      (autoBound args e c).bind fun bound c =>
        (autoStmt s (c.push name)).bind fun body c =>
          some (.ok (.letE ⟨none, 0⟩ name (bound.setName (some name)) body), c)
  | .alt 1 (.cat [_, _, e, _, _]), c => autoExpr e c
  | _, _ => none

/-- `autonibble/src/lib.rs:98-111`: `Convert for Ast`.  Variants of `Ast`: `Branch1`, with the fields `pattern_whitespace1`,
`skip1` (boxed), and `Stmt1`. -/
def autoAst : Tree → Ctx → Conv NE
  | .alt 0 (.cat [_, .box t]), c => autoAst t c
  | .alt 1 s, c => autoStmt s c
  | _, _ => none

/-! The names that the Rust code uses are those of the table at the positions used above. -/

example : namesOf autoTable 0 = ["Branch1", "Stmt1"] ∧ namesOf autoTable 14 = ["pattern_whitespace1", "skip1"] ∧
    namesOf autoTable 15 = ["Let1", "Goal1"] ∧
    namesOf autoTable 231 = ["part1", "ws1", "names1", "part4", "ows1", "expr1", "part7", "ows2", "stmt1"] ∧
    namesOf autoTable 235 = ["part1", "ws1", "expr1", "part4", "ows1"] ∧
    namesOf autoTable 22 = ["ident1", "opt1"] ∧ namesOf autoTable 101 = ["None1", "Some1"] ∧
    namesOf autoTable 100 = ["ws1", "opt1"] ∧ namesOf autoTable 99 = ["None1", "List1"] ∧
    namesOf autoTable 106 = ["Alt1", "Lambda1"] ∧
    namesOf autoTable 226 = ["part1", "ows1", "names1", "part4", "ows2", "alt1"] ∧
    namesOf autoTable 107 = ["labelled1", "opt1"] ∧ namesOf autoTable 220 = ["None1", "Some1"] ∧
    namesOf autoTable 219 = ["sep1", "ows1", "separated1"] ∧
    namesOf autoTable 214 = ["cat1", "opt1"] ∧ namesOf autoTable 213 = ["None1", "Label1"] ∧
    namesOf autoTable 212 = ["part1", "ows1", "ident1", "ows2"] ∧
    namesOf autoTable 108 = ["call1", "opt1"] ∧ namesOf autoTable 202 = ["None1", "Some1"] ∧
    namesOf autoTable 201 = ["sep1", "ows1", "separated1"] ∧
    namesOf autoTable 109 = ["term1", "opt1"] ∧ namesOf autoTable 195 = ["None1", "Some1"] ∧
    namesOf autoTable 194 = ["ws1", "opt1"] ∧ namesOf autoTable 193 = ["None1", "List1"] ∧
    namesOf autoTable 110 = ["Epsilon1", "Literal1", "Parens1", "Fix1", "Variable1"] ∧
    namesOf autoTable 177 = ["part1", "contents1", "part3"] ∧ namesOf autoTable 181 = ["part1", "ows1", "expr1", "part4"] ∧
    namesOf autoTable 185 = ["part1", "ows1", "term1"] ∧
    namesOf autoTable 112 = ["literal_char1", "opt1"] ∧ namesOf autoTable 175 = ["None1", "Plus1"] ∧
    namesOf autoTable 172 = ["Literal1", "Escape1"] ∧ namesOf autoTable 171 = [] ∧
    namesOf autoTable 170 = ["Ascii1", "Oct1", "Unicode1"] ∧
    namesOf autoTable 143 = ["Branch1", "Branch2", "Branch3", "Branch4", "Branch5", "Branch6", "Branch7"] ∧
    namesOf autoTable 146 = ["part1", "oct_digit1", "hex_digit1"] ∧ namesOf autoTable 169 = ["part1", "up_to1", "part3"] := by
  decide
example : ([0, 15, 106, 226, 107, 214, 213, 108, 109, 110, 185, 188, 22, 99, 101, 95, 220, 202, 195, 193, 112, 175, 172, 171, 170,
      143, 146, 169, 209].map fun i => autoTable[i]?.map (·.1)) =
    ["Ast1", "Stmt1", "Expr1", "Lambda1", "Alt1", "Labelled1", "Opt15", "Cat1", "Call1", "Term1", "Fix1", "Variable1",
      "Names1", "Opt3", "Opt4", "Ident1", "Opt16", "Opt14", "Opt13", "Opt12", "Contents1", "Opt11", "LiteralChar1", "Escape1",
      "Alt171", "Ascii1", "Oct1", "Unicode1", "Ident2"].map some := by
  decide

end Chomp
