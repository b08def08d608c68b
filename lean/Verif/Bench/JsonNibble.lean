import Verif.Grammars.JsonTable
import Verif.Grammars.Inv
import Verif.Auto.Values
import Verif.Bench.JsonSpec

/-!
# Conversion of the trees of the generated JSON parser: `/repo/chomp-bench/src/json/nibble.rs`

Trees as in `Bench/ArithNibble.lean`.  `none` is a panic.  A tree that is not of the type of the argument of a conversion
also gives `none`: such arguments do not exist in Rust.  `F` stands for `f64`.
-/

namespace Chomp

/-- `u16::from_str_radix(s, 16)` of the standard library, for strings without a sign; `none` is an error. -/
def u16FromHex (s : List Char) : Option Nat :=
  if s.isEmpty then none
  else (hexFold s 0).bind fun v => if v < 65536 then some v else none

/-- `chomp-bench/src/json/nibble.rs:123-126`: `decode`.  Fields of `Unicode1`: `part1`, `hex1`, `hex2`, `hex3`, `hex4`. -/
def njUnit : Tree → Option Nat
  | .cat [_, a, b, c, d] =>
    a.toChar.bind fun a => b.toChar.bind fun b => c.toChar.bind fun c => d.toChar.bind fun d => u16FromHex [a, b, c, d]
  | _ => none

/-- `chomp-bench/src/json/nibble.rs:134-141`: the escapes of one character, by variant of `Ascii1`. -/
def njAscii : Nat → Option Char
  | 0 => some '"'
  | 1 => some '\\'
  | 2 => some '/'
  | 3 => some '\x08'
  | 4 => some '\x0c'
  | 5 => some '\n'
  | 6 => some '\r'
  | 7 => some '\t'
  | _ => none

/-- `chomp-bench/src/json/nibble.rs:109-121`: the characters that the function `next` inside `next` yields one after the
other.  Variants of `Opt5`: `None1`, `Some1`, whose content has the fields `char1`, `rec1` (boxed). -/
def njStar : Tree → List Tree
  | .alt 1 (.cat [c, .box r]) => c :: njStar r
  | _ => []

/-- `0xD800..=0xDFFF`, `SURROGATE_PAIR_RANGE` (`chomp-bench/src/json/nibble.rs:128`). -/
def njSurrogate (n : Nat) : Bool := 0xD800 ≤ n && n ≤ 0xDFFF

/-- `chomp-bench/src/json/nibble.rs:109-166`: `Iterator for Opt5`, iterated to the end; the argument lists the characters that
remain.  Variants of `Char1`: `Literal1`, `Escape1`, whose field `1` has the variants `Ascii1`, `Unicode1`. -/
def njDecode : List Tree → Option (List Char)
  | [] => some []
  | .alt 0 l :: r => l.toChar.bind fun c => (njDecode r).map (c :: ·)
  | .alt 1 (.cat [_, .alt 0 (.alt k _)]) :: r => (njAscii k).bind fun c => (njDecode r).map (c :: ·)
  | .alt 1 (.cat [_, .alt 1 u]) :: r =>
    (njUnit u).bind fun codepoint =>
      if njSurrogate codepoint then
        match r with
        | .alt 1 (.cat [_, .alt 1 u']) :: r =>
          (njUnit u').bind fun other =>
            if njSurrogate other then
              ((decodePair codepoint other).bind charOfU32).bind fun c => (njDecode r).map (c :: ·)
            else none
        | _ => none
      else (charOfU32 codepoint).bind fun c => (njDecode r).map (c :: ·)
  | _ => none

/-- `chomp-bench/src/json/nibble.rs:103-107`: `From<String1>`.  Fields: `part1`, `star1`, `part3`. -/
def njString : Tree → Option (List Char)
  | .cat [_, s, _] => njDecode (njStar s)
  | _ => none

mutual
/-- `chomp-bench/src/json/nibble.rs:83-101`: `From<Value1>` and `From<Number1>`.  Variants of `Value1`: `True1`, `False1`, `Null1`,
`Number1`, `String1`, `Object1`, `Array1`.  Fields of `Object1` and `Array1`: `part1`, `ws1`, `opt1`, `part4`; variants of `Opt8`
and `Opt10`: `None1`, `Sep1`. -/
def njValue (F : F64) : Tree → Option (JValue F)
  | .alt 0 _ => some (.bool true)
  | .alt 1 _ => some (.bool false)
  | .alt 2 _ => some .null
  | .alt 3 n => (F.parse n.display).map .number
  | .alt 4 s => (njString s).map .string
  | .alt 5 (.cat [_, _, .alt 0 _, _]) => some (.object [])
  | .alt 5 (.cat [_, _, .alt 1 s, _]) => (njMembers F s).map .object
  | .alt 6 (.cat [_, _, .alt 0 _, _]) => some (.array [])
  | .alt 6 (.cat [_, _, .alt 1 s, _]) => (njItems F s).map .array
  | _ => none
/-- `chomp-bench/src/json/nibble.rs:168-208`: `From<Object1>`, `IntoIterator for Opt8` and `Iterator for Opt7`: the entries of the
map in the order of insertion.  `into_iter` wraps a `Sep1` so that the first `next` yields its own member and goes on with
its `opt1`; so the argument here is the `Sep1`.  Fields of `Sep2`: `member1`, `opt1`; of `Member1`: `key1`, `ws1`, `part3`, `ws2`,
`value1` (boxed), `ws3`; variants of `Opt7`: `None1`, `Some1`, whose content has the fields `part1`, `ws1`, `rec1` (boxed). -/
def njMembers (F : F64) : Tree → Option (List (List Char × JValue F))
  | .cat [.cat [k, _, _, _, .box v, _], .alt 0 _] =>
    (njString k).bind fun k => (njValue F v).map fun v => [(k, v)]
  | .cat [.cat [k, _, _, _, .box v, _], .alt 1 (.cat [_, _, .box s])] =>
    (njString k).bind fun k => (njValue F v).bind fun v => (njMembers F s).map fun l => (k, v) :: l
  | _ => none
/-- `chomp-bench/src/json/nibble.rs:210-242`: `From<Array1>`, `IntoIterator for Opt10` and `Iterator for Opt9`; as for objects.  Fields
of `Sep4`: `iter1`, `opt1`; of `Iter1`: `value1` (boxed), `ws1`. -/
def njItems (F : F64) : Tree → Option (List (JValue F))
  | .cat [.cat [.box v, _], .alt 0 _] => (njValue F v).map ([·])
  | .cat [.cat [.box v, _], .alt 1 (.cat [_, _, .box s])] =>
    (njValue F v).bind fun v => (njItems F s).map (v :: ·)
  | _ => none
end

/-- `chomp-bench/src/json/nibble.rs:72-81`: `From<Ast>`.  Variants of `Ast`: `Branch1`, whose content has the fields `ws_char1`, `rec1`
(boxed), and `Branch2`, with the fields `value1`, `ws1`. -/
def njAst (F : F64) : Tree → Option (JValue F)
  | .alt 0 (.cat [_, .box t]) => njAst F t
  | .alt 1 (.cat [v, _]) => njValue F v
  | _ => none

/-! The names that the Rust code uses are those of the table at the positions used above. -/

example : namesOf jsonTable 0 = ["Branch1", "Branch2"] ∧ namesOf jsonTable 7 = ["ws_char1", "rec1"] ∧
    namesOf jsonTable 181 = ["value1", "ws1"] ∧
    namesOf jsonTable 8 = ["True1", "False1", "Null1", "Number1", "String1", "Object1", "Array1"] ∧
    namesOf jsonTable 153 = ["part1", "star1", "part3"] ∧ namesOf jsonTable 63 = ["None1", "Some1"] ∧
    namesOf jsonTable 151 = ["char1", "rec1"] ∧ namesOf jsonTable 149 = ["Literal1", "Escape1"] ∧
    namesOf jsonTable 147 = ["Ascii1", "Unicode1"] ∧ namesOf jsonTable 146 = ["part1", "hex1", "hex2", "hex3", "hex4"] ∧
    namesOf jsonTable 169 = ["part1", "ws1", "opt1", "part4"] ∧ namesOf jsonTable 168 = ["None1", "Sep1"] ∧
    namesOf jsonTable 160 = ["member1", "opt1"] ∧ namesOf jsonTable 162 = ["key1", "ws1", "part3", "ws2", "value1", "ws3"] ∧
    namesOf jsonTable 166 = ["None1", "Some1"] ∧ namesOf jsonTable 165 = ["part1", "ws1", "rec1"] ∧
    namesOf jsonTable 179 = ["part1", "ws1", "opt1", "part4"] ∧ namesOf jsonTable 178 = ["None1", "Sep1"] ∧
    namesOf jsonTable 171 = ["iter1", "opt1"] ∧ namesOf jsonTable 172 = ["value1", "ws1"] ∧
    namesOf jsonTable 176 = ["None1", "Some1"] ∧ namesOf jsonTable 175 = ["part1", "ws1", "rec1"] ∧
    ([0, 8, 61, 63, 74, 144, 146, 147, 148, 149, 152, 153, 154, 162, 165, 166, 168, 169, 175, 176, 178, 179].map fun i => jsonTable[i]?.map (·.1)) =
      ["Ast1", "Value1", "Number1", "Star2", "Lit75", "Ascii1", "Unicode1", "Alt148", "Escape1", "Char1", "Opt5", "String1", "Ws1", "Member1",
       "Some8", "Opt7", "Opt8", "Object1", "Some9", "Opt9", "Opt10", "Array1"].map some := by
  decide

end Chomp
