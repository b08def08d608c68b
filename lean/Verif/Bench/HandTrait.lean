import Verif.Lower.Trait
import Verif.Bench.Arith
import Verif.Bench.Json

/-!
# The hand-written benchmark parsers with any implementation of `Parser`

`take_number`, ..., `parse_expr` of `chomp-bench/src/arith/mod.rs` and `Value::take` of `chomp-bench/src/json/mod.rs` are generic over
`P: Parser + ?Sized`, as are the default methods of `Parser` that they call.  `Bench/Arith.lean`, `Bench/Json.lean` and `Chewed/Model.lean`
model them on an `IterWrapper` over the characters of a text; here is the generic code.  `L` bounds the number of iterations of each loop
over characters.
-/

namespace Chomp

variable {σ α β : Type}

/-- `chewed/src/parse.rs:48-52`: `Parser::skip_while`. -/
def skipWhileG (I : PImpl σ) (f : Char → Bool) : Nat → σ → ResG σ Unit
  | 0, _ => .oof
  | n + 1, x =>
    match I.peek x with
    | (some c, x) => if f c then skipWhileG I f n (I.next x).2 else .ok () x
    | (none, x) => .ok () x

/-- `chewed/src/parse.rs:54-64`: `Parser::take_chars_from`; the filled buffer is returned. -/
def takeCharsFromG (I : PImpl σ) (set : List Char) : Nat → σ → ResG σ (List Char)
  | 0, x => .ok [] x
  | n + 1, x =>
    match I.next x with
    | (none, x) => .err (.endOfStream (I.pos x)) x
    | (some c, x) =>
      if set.contains c then (takeCharsFromG I set n x).map (c :: ·)
      else .err (.badBranch (I.pos x) c set) x

/-- Outcome of one `Iter::next` call. -/
inductive IterOutG (σ α : Type) where
  | done (x : σ)
  | item (r : Except TakeError α) (x : σ)
  | panic
  | oof

/-- `chewed/src/parse.rs:106-120`: the separator check after an item; the `assert_eq!` panics if `next` does not return what `peek`
returned. -/
def iterAfterG (I : PImpl σ) (cfg : IterCfg) (res : Except TakeError α) (x : σ) : IterOutG σ α :=
  match I.peek x with
  | (none, x) => .item (.error (.endOfStream (I.pos x))) x
  | (some c, x) =>
    if c = cfg.sep then
      if (I.next x).1 = some c then
        match I.peek (I.next x).2 with
        | (none, x) => .item (.error (.endOfStream (I.pos x))) x
        | (some c, x) =>
          if cfg.first.contains c then .item res x
          else .item (.error (.badBranch (I.pos x) c cfg.first)) x
      else .panic
    else if c = cfg.stop then .item res x
    else .item (.error (.badBranch (I.pos x) c cfg.sepStop)) x

/-- `chewed/src/parse.rs:99-122`: `Iter::next` with `strict_sep = true`. -/
def iterNextG (I : PImpl σ) (cfg : IterCfg) (item : σ → ResG σ α) (x : σ) : IterOutG σ α :=
  match I.peek x with
  | (none, x) => .done x
  | (some c, x) =>
    if c = cfg.stop then .done x
    else
      match item x with
      | .ok a x => iterAfterG I cfg (.ok a) x
      | .err e x => iterAfterG I cfg (.error e) x
      | .panic => .panic
      | .oof => .oof

/-- `iter_strict(..).collect::<Result<_, _>>()` (`chomp-bench/src/json/mod.rs:209-212,217-232`). -/
def collectIterG (I : PImpl σ) (cfg : IterCfg) (item : σ → ResG σ α) : Nat → σ → ResG σ (List α)
  | 0, _ => .oof
  | n + 1, x =>
    match iterNextG I cfg item x with
    | .done x => .ok [] x
    | .item (.ok a) x => (collectIterG I cfg item n x).map (a :: ·)
    | .item (.error e) x => .err e x
    | .panic => .panic
    | .oof => .oof

/-- Continue with the result of an operation that may panic. -/
def orPanicG (o : Option α) (f : α → ResG σ β) : ResG σ β :=
  match o with
  | some a => f a
  | none => .panic

/-! ## Arithmetic -/

/-- `chomp-bench/src/arith/mod.rs:9-62`: the loop of `take_number` (see `takeNumberGo`). -/
def takeNumberGoG (I : PImpl σ) (m : Ovf) : Nat → Option Int → σ → ResG σ Int
  | 0, _, _ => .oof
  | n + 1, out, x =>
    match I.peek x with
    | (some c, x) =>
      if c.isDigit then
        (consumeStrG I [c] x).bind fun _ x =>
          orPanicG (m.fit (out.getD 0 * 10)) fun v =>
            orPanicG (m.fit (v + digitVal c)) fun v => takeNumberGoG I m n (some v) x
      else
        match out with
        | some v => .ok v x
        | none => .err (.badBranch (I.pos x) c digitChars) x
    | (none, x) =>
      match out with
      | some v => .ok v x
      | none => .err (.endOfStream (I.pos x)) x

/-- `chomp-bench/src/arith/mod.rs:7-63`: `take_number`. -/
def takeNumberG (I : PImpl σ) (L : Nat) (m : Ovf) (x : σ) : ResG σ Int := takeNumberGoG I m L none x

/-- `input.skip_while(|c| c == ' ')`. -/
def arithSpacesG (I : PImpl σ) (L : Nat) (x : σ) : ResG σ Unit := skipWhileG I (· == ' ') L x

mutual
/-- `chomp-bench/src/arith/mod.rs:65-89`: `take_term` (see `takeTerm`). -/
def takeTermG (I : PImpl σ) (L : Nat) (m : Ovf) : Nat → σ → ResG σ Int
  | 0, _ => .oof
  | n + 1, x =>
    ResG.bind
      (match I.peek x with
      | (some c, x) =>
        if c = '-' then
          (consumeStrG I ['-'] x).bind fun _ x =>
            (arithSpacesG I L x).bind fun _ x =>
              (takeNumberG I L m x).bind fun v x => orPanicG (m.fit (-v)) fun v => .ok v x
        else if c.isDigit then takeNumberG I L m x
        else if c = '(' then
          (consumeStrG I ['('] x).bind fun _ x =>
            (arithSpacesG I L x).bind fun _ x =>
              match takeExprG I L m n x with
              | .ok v x => (consumeStrG I [')'] x).map fun _ => v
              | .err e x => (consumeStrG I [')'] x).bind fun _ x => .err e x
              | .panic => .panic
              | .oof => .oof
        else .err (.badBranch (I.pos x) c ('-' :: '(' :: digitChars)) x
      | (none, x) => .err (.endOfStream (I.pos x)) x)
      fun out x => (arithSpacesG I L x).bind fun _ x => .ok out x
/-- `chomp-bench/src/arith/mod.rs:93-105`: the loop of `take_product`. -/
def productLoopG (I : PImpl σ) (L : Nat) (m : Ovf) : Nat → Int → σ → ResG σ Int
  | 0, _, _ => .oof
  | n + 1, out, x =>
    match I.peek x with
    | (some c, x) =>
      if c = '*' then
        (consumeStrG I ['*'] x).bind fun _ x =>
          (arithSpacesG I L x).bind fun _ x =>
            (takeTermG I L m n x).bind fun v x => orPanicG (m.fit (out * v)) fun out => productLoopG I L m n out x
      else if c = '/' then
        (consumeStrG I ['/'] x).bind fun _ x =>
          (arithSpacesG I L x).bind fun _ x =>
            (takeTermG I L m n x).bind fun v x => orPanicG (divI64 out v) fun out => productLoopG I L m n out x
      else .ok out x
    | (none, x) => .ok out x
/-- `chomp-bench/src/arith/mod.rs:91-107`: `take_product`. -/
def takeProductG (I : PImpl σ) (L : Nat) (m : Ovf) : Nat → σ → ResG σ Int
  | 0, _ => .oof
  | n + 1, x => (takeTermG I L m n x).bind fun out x => productLoopG I L m n out x
/-- `chomp-bench/src/arith/mod.rs:111-123`: the loop of `take_expr`. -/
def exprLoopG (I : PImpl σ) (L : Nat) (m : Ovf) : Nat → Int → σ → ResG σ Int
  | 0, _, _ => .oof
  | n + 1, out, x =>
    match I.peek x with
    | (some c, x) =>
      if c = '+' then
        (consumeStrG I ['+'] x).bind fun _ x =>
          (arithSpacesG I L x).bind fun _ x =>
            (takeProductG I L m n x).bind fun v x => orPanicG (m.fit (out + v)) fun out => exprLoopG I L m n out x
      else if c = '-' then
        (consumeStrG I ['-'] x).bind fun _ x =>
          (arithSpacesG I L x).bind fun _ x =>
            (takeProductG I L m n x).bind fun v x => orPanicG (m.fit (out - v)) fun out => exprLoopG I L m n out x
      else .ok out x
    | (none, x) => .ok out x
/-- `chomp-bench/src/arith/mod.rs:109-125`: `take_expr`. -/
def takeExprG (I : PImpl σ) (L : Nat) (m : Ovf) : Nat → σ → ResG σ Int
  | 0, _ => .oof
  | n + 1, x => (takeProductG I L m n x).bind fun out x => exprLoopG I L m n out x
end

/-- The outcome of a whole parse: the result and the parser that is left, a panic, or (model only) exhausted bounds. -/
inductive EndG (σ α : Type) where
  | done (r : Except ParseError α) (x : σ)
  | panic
  | oof

/-- `chewed/src/parse.rs:185-193`: `Parse::parse`, for a given `take`; also the end of `parse_expr`
(`chomp-bench/src/arith/mod.rs:129-133`). -/
def parseEndG (I : PImpl σ) (take : σ → ResG σ α) (x : σ) : EndG σ α :=
  match take x with
  | .ok a x =>
    match I.peek x with
    | (some _, x) => .done (.error (.inputContinues (I.pos x))) x
    | (none, x) => .done (.ok a) x
  | .err e x => .done (.error (.take e)) x
  | .panic => .panic
  | .oof => .oof

/-- `chomp-bench/src/arith/mod.rs:127-134`: `parse_expr`. -/
def arithParseG (I : PImpl σ) (L : Nat) (m : Ovf) (n : Nat) (x : σ) : EndG σ Int :=
  parseEndG I (fun x => (arithSpacesG I L x).bind fun _ x => takeExprG I L m n x) x

/-! ## JSON -/

/-- `chomp-bench/src/json/mod.rs:108-110`: `skip_ws`. -/
def jsonSkipWsG (I : PImpl σ) (L : Nat) (x : σ) : ResG σ Unit := skipWhileG I (jsonWs.contains ·) L x

/-- `chomp-bench/src/json/mod.rs:112-142`: `parse_u16`. -/
def parseU16G (I : PImpl σ) (m : Ovf) (x : σ) : ResG σ Nat :=
  (takeCharsFromG I jsonHex 4 x).bind fun chars x => orPanicG (u16Loop m chars 0) fun out => .ok out x

/-- `chomp-bench/src/json/mod.rs:146-185`: the loop of `parse_str` (see `strLoop`). -/
def strLoopG (I : PImpl σ) (m : Ovf) : Nat → List Char → σ → ResG σ (List Char)
  | 0, _, _ => .oof
  | n + 1, s, x =>
    match I.next x with
    | (none, x) => .err (.endOfStream (I.pos x)) x
    | (some c, x) =>
      if c = '"' then .ok s x
      else if jsonPlain c then strLoopG I m n (s ++ [c]) x
      else if c = '\\' then
        match I.next x with
        | (none, x) => .err (.endOfStream (I.pos x)) x
        | (some e, x) =>
          match jsonEscape e with
          | some y => strLoopG I m n (s ++ [y]) x
          | none =>
            if e = 'u' then
              (parseU16G I m x).bind fun v x =>
                ((if 0xD800 ≤ v ∧ v ≤ 0xDFFF then
                  (consumeStrG I ['\\', 'u'] x).bind fun _ x =>
                    (parseU16G I m x).bind fun other x => orPanicG (decodePair v other) fun y => .ok y x
                else .ok v x) : ResG σ Nat).bind fun codepoint x =>
                  orPanicG (charOfU32 codepoint) fun y => strLoopG I m n (s ++ [y]) x
            else .panic
      else .panic

/-- `chomp-bench/src/json/mod.rs:144-186`: `parse_str`. -/
def jsonTakeStrG (I : PImpl σ) (L : Nat) (m : Ovf) (x : σ) : ResG σ (List Char) :=
  (consumeStrG I ['"'] x).bind fun _ x => strLoopG I m L [] x

/-- `chomp-bench/src/json/mod.rs:198-204`: the loop that collects the characters of a number; `next().unwrap()` panics if `next` returns
nothing. -/
def numLoopG (I : PImpl σ) : Nat → List Char → σ → ResG σ (List Char)
  | 0, _, _ => .oof
  | n + 1, s, x =>
    match I.peek x with
    | (some c, x) =>
      if numChar c then
        match I.next x with
        | (some c, x) => numLoopG I n (s ++ [c]) x
        | (none, _) => .panic
      else .ok s x
    | (none, x) => .ok s x

/-- `chomp-bench/src/json/mod.rs:197-206`: numbers. -/
def takeNumG (I : PImpl σ) (L : Nat) (F : F64) (x : σ) : ResG σ F.Num :=
  match I.next x with
  | (none, _) => .panic
  | (some c, x) => (numLoopG I L [c] x).bind fun s x => orPanicG (F.parse s) fun v => .ok v x

/-- `chomp-bench/src/json/mod.rs:223-229`: the closure that parses a member of an object. -/
def takeMemberG (I : PImpl σ) (L : Nat) (m : Ovf) (value : σ → ResG σ α) (x : σ) : ResG σ (List Char × α) :=
  (jsonSkipWsG I L x).bind fun _ x =>
    (jsonTakeStrG I L m x).bind fun key x =>
      (jsonSkipWsG I L x).bind fun _ x =>
        (consumeStrG I [':'] x).bind fun _ x => (value x).map fun v => (key, v)

/-- `chomp-bench/src/json/mod.rs:190-241`: the `match` of `take` on the first character `c`. -/
def jsonBranchG (I : PImpl σ) (L : Nat) (F : F64) (m : Ovf) (value : σ → ResG σ (JValue F)) (c : Char) (x : σ) :
    ResG σ (JValue F) :=
  if c = 'n' then (consumeStrG I "null".toList x).map fun _ => .null
  else if c = 't' then (consumeStrG I "true".toList x).map fun _ => .bool true
  else if c = 'f' then (consumeStrG I "false".toList x).map fun _ => .bool false
  else if c.isDigit || c == '-' then (takeNumG I L F x).map .number
  else if c = '"' then (jsonTakeStrG I L m x).map .string
  else if c = '[' then
    (consumeStrG I ['['] x).bind fun _ x =>
      (collectIterG I arrayCfg value L x).bind fun l x => (consumeStrG I [']'] x).map fun _ => .array l
  else if c = '{' then
    (consumeStrG I ['{'] x).bind fun _ x =>
      (collectIterG I objectCfg (takeMemberG I L m value) L x).bind fun l x =>
        (consumeStrG I ['}'] x).map fun _ => .object l
  else .err (.badBranch (I.pos x) c jsonFirst) x

/-- `chomp-bench/src/json/mod.rs:97-246`: `take` of `Value`.  `n` bounds the nesting depth. -/
def takeJsonG (I : PImpl σ) (L : Nat) (F : F64) (m : Ovf) : Nat → σ → ResG σ (JValue F)
  | 0, _ => .oof
  | n + 1, x =>
    ResG.bind
      ((jsonSkipWsG I L x).bind fun _ x =>
        match I.peek x with
        | (none, x) => .err (.endOfStream (I.pos x)) x
        | (some c, x) => jsonBranchG I L F m (takeJsonG I L F m n) c x)
      fun res x => (jsonSkipWsG I L x).bind fun _ x => .ok res x

/-- `Value::parse` (`chewed/src/parse.rs:185-193`). -/
def jsonParseG (I : PImpl σ) (L : Nat) (F : F64) (m : Ovf) (n : Nat) (x : σ) : EndG σ (JValue F) :=
  parseEndG I (takeJsonG I L F m n) x

end Chomp
