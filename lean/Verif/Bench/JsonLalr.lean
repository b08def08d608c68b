import Verif.Bench.Lalr
import Verif.Bench.JsonNibble

/-!
# The LALRPOP grammar of JSON: `/repo/chomp-bench/src/json/lalr.lalrpop`

See `Bench/Lalr.lean` for the model of LALRPOP.
-/

namespace Chomp

/-- The tokens of `chomp-bench/src/json/lalr.lalrpop`: the literals (8-10,13,14,19,20) and the texts of the two regular
expressions (27,29). -/
inductive JTok where
  | null | true | false | lbr | rbr | lcb | rcb | comma | colon
  | num (s : List Char)
  | str (s : List Char)
deriving DecidableEq, Repr

/-- `chomp-bench/src/json/lalr.lalrpop:27`: what follows the integer part: `([eE][-+]?[0-9]+)?`, as long as possible: what
matches and the rest. -/
def lexExp : List Char → List Char × List Char
  | [] => ([], [])
  | e :: r =>
    if e = 'e' ∨ e = 'E' then
      let p : List Char × List Char := match r with
        | [] => ([], [])
        | s :: r' => if s = '-' ∨ s = '+' then ([s], r') else ([], r)
      if (p.2.takeWhile Char.isDigit).isEmpty then ([], e :: r)
      else (e :: p.1 ++ p.2.takeWhile Char.isDigit, p.2.dropWhile Char.isDigit)
    else ([], e :: r)

/-- `chomp-bench/src/json/lalr.lalrpop:27`: `(\.[0-9]*)?`. -/
def lexFrac : List Char → List Char × List Char
  | [] => ([], [])
  | d :: r => if d = '.' then ('.' :: r.takeWhile Char.isDigit, r.dropWhile Char.isDigit) else ([], d :: r)

/-- `chomp-bench/src/json/lalr.lalrpop:27`: `0|[1-9][0-9]*`. -/
def lexInt : List Char → Option (List Char × List Char)
  | [] => none
  | c :: r =>
    if c = '0' then some (['0'], r)
    else if c.isDigit then some (c :: r.takeWhile Char.isDigit, r.dropWhile Char.isDigit)
    else none

/-- `chomp-bench/src/json/lalr.lalrpop:27`: `-?(0|[1-9][0-9]*)(\.[0-9]*)?([eE][-+]?[0-9]+)?`.  The optional parts are taken
whenever they match: that gives the longest match. -/
def lexNum (s : List Char) : Option (List Char × List Char) :=
  let sg : List Char × List Char := match s with
    | [] => ([], [])
    | c :: r => if c = '-' then (['-'], r) else ([], c :: r)
  (lexInt sg.2).map fun i =>
    let f := lexFrac i.2
    let e := lexExp f.2
    (sg.1 ++ i.1 ++ f.1 ++ e.1, e.2)

/-- `chomp-bench/src/json/lalr.lalrpop:29`: the part of `"([^\\"]|\\.)*"` after the first quote, up to and with the closing
one.  The dot does not match a line feed. -/
def lexStr : List Char → Option (List Char × List Char)
  | [] => none
  | '"' :: r => some (['"'], r)
  | ['\\'] => none
  | '\\' :: c :: r => if c = '\n' then none else (lexStr r).map fun p => ('\\' :: c :: p.1, p.2)
  | c :: r => (lexStr r).map fun p => (c :: p.1, p.2)

/-- The literal at the beginning of a text. -/
def lexLit (l : List Char) (t : JTok) (s : List Char) : Option (JTok × List Char) :=
  if l.isPrefixOf s then some (t, s.drop l.length) else none

/-- The longest token at the beginning of a text.  Tokens that start with the same character are of the same kind. -/
def jsonTok : List Char → Option (JTok × List Char)
  | [] => none
  | c :: s =>
    if c = '"' then (lexStr s).map fun p => (.str ('"' :: p.1), p.2)
    else if c = '[' then some (.lbr, s)
    else if c = ']' then some (.rbr, s)
    else if c = '{' then some (.lcb, s)
    else if c = '}' then some (.rcb, s)
    else if c = ',' then some (.comma, s)
    else if c = ':' then some (.colon, s)
    else if c = 'n' then lexLit "null".toList .null (c :: s)
    else if c = 't' then lexLit "true".toList .true (c :: s)
    else if c = 'f' then lexLit "false".toList .false (c :: s)
    else (lexNum (c :: s)).map fun p => (.num p.1, p.2)

mutual
/-- `chomp-bench/src/json/lalr.lalrpop:7-25`: derivations of `Value`, with those of `Num` and `Str`. -/
inductive LVal where
  | null
  | true
  | false
  | num (s : List Char)
  | str (s : List Char)
  | arr0
  | arr (v : LVals) (e : LVal)
  | obj0
  | obj (v : LMems) (k : List Char) (e : LVal)
/-- `chomp-bench/src/json/lalr.lalrpop:14`: derivations of `(<Value> ",")*`. -/
inductive LVals where
  | nil
  | cons (v : LVal) (l : LVals)
/-- `chomp-bench/src/json/lalr.lalrpop:20`: derivations of `(<Str> ":" <Value> ",")*`. -/
inductive LMems where
  | nil
  | cons (k : List Char) (v : LVal) (l : LMems)
end

mutual
/-- `chomp-bench/src/json/lalr.lalrpop:7-25`: the tokens of a derivation. -/
def LVal.toks : LVal → List JTok
  | .null => [.null]
  | .true => [.true]
  | .false => [.false]
  | .num s => [.num s]
  | .str s => [.str s]
  | .arr0 => [.lbr, .rbr]
  | .arr v e => .lbr :: (v.toks ++ (e.toks ++ [.rbr]))
  | .obj0 => [.lcb, .rcb]
  | .obj v k e => .lcb :: (v.toks ++ .str k :: .colon :: (e.toks ++ [.rcb]))
/-- `chomp-bench/src/json/lalr.lalrpop:14`. -/
def LVals.toks : LVals → List JTok
  | .nil => []
  | .cons v l => v.toks ++ .comma :: l.toks
/-- `chomp-bench/src/json/lalr.lalrpop:20`. -/
def LMems.toks : LMems → List JTok
  | .nil => []
  | .cons k v l => .str k :: .colon :: (v.toks ++ .comma :: l.toks)
end

/-- `u16::from_str_radix(s, 16)` of the standard library: an optional `+` and hexadecimal digits; `none` is an error. -/
def u16FromStrRadix (s : List Char) : Option Nat :=
  match s with
  | '+' :: r => u16FromHex r
  | _ => u16FromHex s

/-- `chomp-bench/src/json/lalr.lalrpop:47-49,53-55`: `take(4)` characters, assert that they have four bytes, and read them as a
hexadecimal number. -/
def lalrUnit (a b c d : Char) : Option Nat :=
  if a.utf8Size + b.utf8Size + c.utf8Size + d.utf8Size = 4 then u16FromStrRadix [a, b, c, d] else none

/-- `chomp-bench/src/json/lalr.lalrpop:38-45`: the escapes of one character. -/
def lalrEscape : Char → Option Char
  | '"' => some '\x22'
  | '\\' => some '\x5C'
  | '/' => some '\x2F'
  | 'b' => some '\x08'
  | 'f' => some '\x0C'
  | 'n' => some '\x0A'
  | 'r' => some '\x0D'
  | 't' => some '\x09'
  | _ => none

/-- `chomp-bench/src/json/lalr.lalrpop:34-67`: the loop of the action of `Str`; the argument lists the characters that remain.
`none` is a panic; where characters are missing an assertion or `unwrap` fails. -/
def lalrDecode : List Char → Option (List Char)
  | [] => some []
  | '\\' :: 'u' :: a :: b :: c :: d :: r =>
    (lalrUnit a b c d).bind fun v =>
      if njSurrogate v then
        match r with
        | '\\' :: 'u' :: a' :: b' :: c' :: d' :: r =>
          (lalrUnit a' b' c' d').bind fun o => ((decodePair v o).bind charOfU32).bind fun x => (lalrDecode r).map (x :: ·)
        | _ => none
      else (charOfU32 v).bind fun x => (lalrDecode r).map (x :: ·)
  | '\\' :: e :: r => (lalrEscape e).bind fun x => (lalrDecode r).map (x :: ·)
  | c :: r => if jsonPlain c then (lalrDecode r).map (c :: ·) else none

/-- `chomp-bench/src/json/lalr.lalrpop:29-69`: the action of `Str`: `iter.next(); iter.next_back();` and the loop. -/
def lalrStr (s : List Char) : Option (List Char) := lalrDecode (s.drop 1).dropLast

mutual
/-- `chomp-bench/src/json/lalr.lalrpop:7-27`: the actions; `none` is a panic. -/
def LVal.run (F : F64) : LVal → Option (JValue F)
  | .null => some .null
  | .true => some (.bool Bool.true)
  | .false => some (.bool Bool.false)
  | .num s => (F.parse s).map .number
  | .str s => (lalrStr s).map .string
  | .arr0 => some (.array [])
  | .arr v e => (v.run F).bind fun v => (e.run F).map fun e => .array (v ++ [e])
  | .obj0 => some (.object [])
  | .obj v k e => (v.run F).bind fun v => (lalrStr k).bind fun k => (e.run F).map fun e => .object (v ++ [(k, e)])
/-- `chomp-bench/src/json/lalr.lalrpop:14`: the values of `(<Value> ",")*`. -/
def LVals.run (F : F64) : LVals → Option (List (JValue F))
  | .nil => some []
  | .cons v l => (v.run F).bind fun v => (l.run F).map (v :: ·)
/-- `chomp-bench/src/json/lalr.lalrpop:20`: the values of `(<Str> ":" <Value> ",")*`. -/
def LMems.run (F : F64) : LMems → Option (List (List Char × JValue F))
  | .nil => some []
  | .cons k v l => (lalrStr k).bind fun k => (v.run F).bind fun v => (l.run F).map ((k, v) :: ·)
end

/-- `chomp-bench/src/json/lalr.lalrpop`: `ValueParser::parse` accepts the text, and computing the value ends with `r` (`none`:
a panic in an action). -/
def LalrJson (F : F64) (text : List Char) (r : Option (JValue F)) : Prop :=
  ∃ e : LVal, lalrTokens jsonTok text = some e.toks ∧ e.run F = r

end Chomp
