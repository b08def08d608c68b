import Verif.Bench.Arith

/-!
# The hand-written JSON parser: `/repo/chomp-bench/src/json/mod.rs`

`f64` is abstract: a type with the standard library's parsing and formatting functions (`F64`).
-/

namespace Chomp

/-- What the code uses of `f64`: `str::parse::<f64>` (`none` is an error) and `Display`. -/
structure F64 where
  Num : Type
  parse : List Char → Option Num
  display : Num → List Char

/-- `chomp-bench/src/json/mod.rs:26-34`: `Value`.  A `HashMap` is given by a list of entries: the map that
results from inserting them in order (so a later entry replaces an earlier one with the same key). -/
inductive JValue (F : F64) where
  | null
  | bool (b : Bool)
  | number (n : F.Num)
  | string (s : List Char)
  | array (l : List (JValue F))
  | object (l : List (List Char × JValue F))

/-- `chomp-bench/src/json/mod.rs:9-24`: `decode_pair` on 16-bit values; `none` is a failed assertion.  The subtractions
cannot underflow after the assertions, and the 32-bit arithmetic cannot overflow. -/
def decodePair (one other : Nat) : Option Nat :=
  let low (x : Nat) : Bool := 0xDC00 ≤ x && x ≤ 0xDFFF
  let high (x : Nat) : Bool := 0xD800 ≤ x && x ≤ 0xDBFF
  if low one then
    if high other then some ((other - 0xD800) * 0x400 + (one - 0xDC00) + 0x10000) else none
  else if low other then
    if high one then some ((one - 0xD800) * 0x400 + (other - 0xDC00) + 0x10000) else none
  else none

/-- `char::try_from(u32)` (standard library): scalar values only. -/
def charOfU32 (n : Nat) : Option Char :=
  if n < 0xD800 ∨ (0xDFFF < n ∧ n < 0x110000) then some (Char.ofNat n) else none

/-- `char::from(u8)` and `{:04X}` digits: an upper case hexadecimal digit. -/
def hexUpper (n : Nat) : Char := if n < 10 then Char.ofNat (48 + n) else Char.ofNat (55 + n)

/-- `{:04X}` of a 16-bit value. -/
def hex4 (n : Nat) : List Char :=
  [hexUpper (n / 4096 % 16), hexUpper (n / 256 % 16), hexUpper (n / 16 % 16), hexUpper (n % 16)]

/-- `chomp-bench/src/json/mod.rs:42,153`: the characters that strings contain unescaped:
`'\x20'..='\x21' | '\x23'..='\x5B' | '\x5D'..='\u{10FFFF}'`. -/
def jsonPlain (c : Char) : Bool :=
  (0x20 ≤ c.toNat && c.toNat ≤ 0x21) || (0x23 ≤ c.toNat && c.toNat ≤ 0x5B) || (0x5D ≤ c.toNat && c.toNat ≤ 0x10FFFF)

/-- `u32` subtraction; `none` is the panic on underflow in builds that check. -/
def subU32 (m : Ovf) (a b : Nat) : Option Nat :=
  if b ≤ a then some (a - b) else match m with
    | .checked => none
    | .wrapping => some (a + 4294967296 - b)

/-- `u16::try_from(u32).unwrap()`. -/
def unwrapU16 (n : Nat) : Option Nat := if n < 65536 then some n else none

/-- `chomp-bench/src/json/mod.rs:41-57`: one character of `write_str`; `none` is a panic. -/
def writeChar (m : Ovf) (c : Char) : Option (List Char) :=
  if jsonPlain c then some [c]
  else if c = '"' then some ['\\', '"']
  else if c = '\\' then some ['\\', '\\']
  else if c = '\x08' then some ['\\', 'b']
  else if c = '\x0C' then some ['\\', 'f']
  else if c = '\n' then some ['\\', 'n']
  else if c = '\r' then some ['\\', 'r']
  else if c = '\t' then some ['\\', 't']
  else
    (subU32 m c.toNat 0x10000).bind fun codepoint =>
      (unwrapU16 (codepoint / 0x400 + 0xD800)).bind fun high =>
        (unwrapU16 (codepoint % 0x400 + 0xDC00)).map fun low =>
          '\\' :: 'u' :: hex4 high ++ '\\' :: 'u' :: hex4 low

/-- `chomp-bench/src/json/mod.rs:40-59`: the loop of `write_str`. -/
def writeChars (m : Ovf) : List Char → Option (List Char)
  | [] => some []
  | c :: s => (writeChar m c).bind fun a => (writeChars m s).map (a ++ ·)

/-- `chomp-bench/src/json/mod.rs:38-61`: `write_str`. -/
def writeStr (m : Ovf) (s : List Char) : Option (List Char) :=
  (writeChars m s).map fun t => '"' :: t ++ ['"']

mutual
/-- `chomp-bench/src/json/mod.rs:36-95`: `Display for Value`; `none` is a panic. -/
def JValue.display {F : F64} (m : Ovf) : JValue F → Option (List Char)
  | .null => some "null".toList
  | .bool b => some (if b then "true".toList else "false".toList)
  | .number n => some (F.display n)
  | .string s => writeStr m s
  | .array l => (JValue.displayL m l).map fun t => '[' :: t ++ [']']
  | .object l => (JValue.displayO m l).map fun t => '{' :: t ++ ['}']
/-- `chomp-bench/src/json/mod.rs:67-78`: the items of an array: all but the last one are followed by a comma and a
space. -/
def JValue.displayL {F : F64} (m : Ovf) : List (JValue F) → Option (List Char)
  | [] => some []
  | v :: l => v.display m |>.bind fun a => (JValue.displayL m l).map fun b =>
      if l.isEmpty then a else a ++ ',' :: ' ' :: b
/-- `chomp-bench/src/json/mod.rs:79-93`: the members of an object.  The code writes the first entry of the map's
iterator last; as the order of iteration is unspecified, the list is taken to be in the order of writing. -/
def JValue.displayO {F : F64} (m : Ovf) : List (List Char × JValue F) → Option (List Char)
  | [] => some []
  | (k, v) :: l => (writeStr m k).bind fun a => (v.display m).bind fun b => (JValue.displayO m l).map fun c =>
      if l.isEmpty then a ++ ' ' :: ':' :: ' ' :: b else a ++ ' ' :: ':' :: ' ' :: b ++ ',' :: ' ' :: c
end

/-- `chomp-bench/src/json/mod.rs:99`: `WS`. -/
def jsonWs : List Char := [' ', '\t', '\n', '\r']
/-- `chomp-bench/src/json/mod.rs:100-102`: `FIRST`. -/
def jsonFirst : List Char :=
  ['t', 'f', 'n', '0', '1', '2', '3', '4', '5', '6', '7', '8', '9', '-', '"', '[', '{']
/-- `chomp-bench/src/json/mod.rs:103-106`: `FIRST_WS`. -/
def jsonFirstWs : List Char :=
  ['t', 'f', 'n', '0', '1', '2', '3', '4', '5', '6', '7', '8', '9', '-', '"', '[', '{', ' ', '\t', '\n', '\r']
/-- `chomp-bench/src/json/mod.rs:113-116`: `HEX`. -/
def jsonHex : List Char :=
  ['0', '1', '2', '3', '4', '5', '6', '7', '8', '9', 'a', 'b', 'c', 'd', 'e', 'f', 'A', 'B', 'C', 'D', 'E', 'F']

/-- `chomp-bench/src/json/mod.rs:108-110`: `skip_ws`. -/
def jsonSkipWs (w : IW) : IW := skipWhile (jsonWs.contains ·) w

/-- The digit that the arms of `chomp-bench/src/json/mod.rs:121-139` add for a character. -/
def hexArm (c : Char) : Option Nat :=
  if c.isDigit then some (c.toNat - 48)
  else if 'a' ≤ c ∧ c ≤ 'f' then some (c.toNat - 97 + 10)
  else if 'A' ≤ c ∧ c ≤ 'F' then some (c.toNat - 65 + 10)
  else none

/-- `chomp-bench/src/json/mod.rs:119-140`: the loop of `parse_u16`: `out *= 16 + d` for each digit (sic: a product); `none` is
a panic (an overflow of `u16` in builds that check, or `unreachable!()`). -/
def u16Loop (m : Ovf) : List Char → Nat → Option Nat
  | [], out => some out
  | c :: l, out =>
    (hexArm c).bind fun d =>
      let x := out * (16 + d)
      if x < 65536 then u16Loop m l x
      else match m with
        | .checked => none
        | .wrapping => u16Loop m l (x % 65536)

/-- `chomp-bench/src/json/mod.rs:112-142`: `parse_u16`. -/
def parseU16 (m : Ovf) (w : IW) : Res Nat :=
  (takeCharsFrom jsonHex 4 w).bind fun chars w => orPanic (u16Loop m chars 0) fun out => .ok out w

/-- `chomp-bench/src/json/mod.rs:161-168`: the escapes of one character. -/
def jsonEscape (c : Char) : Option Char :=
  if c = '"' then some '"'
  else if c = '\\' then some '\\'
  else if c = '/' then some '/'
  else if c = 'b' then some '\x08'
  else if c = 'f' then some '\x0C'
  else if c = 'n' then some '\n'
  else if c = 'r' then some '\r'
  else if c = 't' then some '\t'
  else none

/-- `chomp-bench/src/json/mod.rs:146-185`: the loop of `parse_str`; `s` is the string so far.  The error arms evaluate
`todo!()`, which panics.  Fuel bounds the number of characters. -/
def strLoop (m : Ovf) : Nat → List Char → IW → Res (List Char)
  | 0, _, _ => .oof
  | n + 1, s, w =>
    match w.advance with
    | (none, w) => .err (.endOfStream w.pos) w
    | (some c, w) =>
      if c = '"' then .ok s w
      else if jsonPlain c then strLoop m n (s ++ [c]) w
      else if c = '\\' then
        match w.advance with
        | (none, w) => .err (.endOfStream w.pos) w
        | (some e, w) =>
          match jsonEscape e with
          | some x => strLoop m n (s ++ [x]) w
          | none =>
            if e = 'u' then
              (parseU16 m w).bind fun v w =>
                ((if 0xD800 ≤ v ∧ v ≤ 0xDFFF then
                  (consumeStr ['\\', 'u'] w).bind fun _ w =>
                    (parseU16 m w).bind fun other w => orPanic (decodePair v other) fun x => .ok x w
                else .ok v w) : Res Nat).bind fun codepoint w =>
                  orPanic (charOfU32 codepoint) fun x => strLoop m n (s ++ [x]) w
            else .panic
      else .panic

/-- `chomp-bench/src/json/mod.rs:144-186`: `parse_str`. -/
def jsonTakeStr (m : Ovf) (w : IW) : Res (List Char) :=
  (consumeStr ['"'] w).bind fun _ w => strLoop m (w.left + 1) [] w

/-- `chomp-bench/src/json/mod.rs:200-202`: the characters of a number after the first one. -/
def numChar (c : Char) : Bool := c.isDigit || c == '+' || c == '-' || c == '.' || c == 'e' || c == 'E'

/-- `chomp-bench/src/json/mod.rs:198-204`: the loop that collects the characters of a number; fuel bounds their
number. -/
def numLoop : Nat → List Char → IW → Res (List Char)
  | 0, _, _ => .oof
  | n + 1, s, w =>
    match w.peek with
    | (some c, w) => if numChar c then numLoop n (s ++ [c]) w.advance.2 else .ok s w
    | (none, w) => .ok s w

/-- `chomp-bench/src/json/mod.rs:197-206`: numbers; a text that is no `f64` reaches `todo!()`. -/
def takeNum (F : F64) (w : IW) : Res F.Num :=
  match w.advance with
  | (none, _) => .panic
  | (some c, w) => (numLoop (w.left + 1) [c] w).bind fun s w => orPanic (F.parse s) fun x => .ok x w

/-- `chomp-bench/src/json/mod.rs:209-214`: the parameters of `iter_strict` for arrays. -/
def arrayCfg : IterCfg := ⟨',', ']', [',', ']'], jsonFirstWs⟩
/-- `chomp-bench/src/json/mod.rs:219-235`: the parameters of `iter_strict` for objects. -/
def objectCfg : IterCfg := ⟨',', '}', [',', '}'], ['"', ' ', '\t', '\n', '\r']⟩

/-- `chomp-bench/src/json/mod.rs:223-229`: the closure that parses a member of an object. -/
def takeMember {α : Type} (m : Ovf) (value : IW → Res α) (w : IW) : Res (List Char × α) :=
  (jsonTakeStr m (jsonSkipWs w)).bind fun key w =>
    (consumeStr [':'] (jsonSkipWs w)).bind fun _ w => (value w).map fun v => (key, v)

/-- `chomp-bench/src/json/mod.rs:190-241`: the `match` of `take` on the first character `c`; `value` parses the values in
arrays and objects. -/
def jsonBranch (F : F64) (m : Ovf) (value : IW → Res (JValue F)) (c : Char) (w : IW) : Res (JValue F) :=
  if c = 'n' then (consumeStr "null".toList w).map fun _ => .null
  else if c = 't' then (consumeStr "true".toList w).map fun _ => .bool true
  else if c = 'f' then (consumeStr "false".toList w).map fun _ => .bool false
  else if c.isDigit || c == '-' then (takeNum F w).map .number
  else if c = '"' then (jsonTakeStr m w).map .string
  else if c = '[' then
    (consumeStr ['['] w).bind fun _ w =>
      (collectIter arrayCfg value (w.left + 1) w).bind fun l w => (consumeStr [']'] w).map fun _ => .array l
  else if c = '{' then
    (consumeStr ['{'] w).bind fun _ w =>
      (collectIter objectCfg (takeMember m value) (w.left + 1) w).bind fun l w =>
        (consumeStr ['}'] w).map fun _ => .object l
  else .err (.badBranch w.pos c jsonFirst) w

/-- `chomp-bench/src/json/mod.rs:97-246`: `take` of `Value`.  Fuel bounds the nesting depth. -/
def takeJson (F : F64) (m : Ovf) : Nat → IW → Res (JValue F)
  | 0, _ => .oof
  | n + 1, w =>
    Res.bind
      (match (jsonSkipWs w).peek with
      | (none, w) => .err (.endOfStream w.pos) w
      | (some c, w) => jsonBranch F m (takeJson F m n) c w)
      fun res w => .ok res (jsonSkipWs w)

/-- `Value::parse_str` (`chewed/src/parse.rs:199-201`). -/
def jsonParse (F : F64) (m : Ovf) (n : Nat) (text : List Char) : ParseRes (JValue F) := parseStr (takeJson F m n) text

end Chomp
