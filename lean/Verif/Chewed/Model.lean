/-!
# Model of the `chewed` runtime crate

`/repo/chewed/src/position.rs`, `/repo/chewed/src/error.rs`, `/repo/chewed/src/parse.rs`.

Strings are lists of Unicode scalar values.  Here the default methods of the `Parser` trait
are modelled on `IterWrapper` over the characters of a text, the only implementation in the
repository; `Lower/Trait.lean` has generated code on any implementation and any iterator.
-/

namespace Chomp

/-- `chewed/src/position.rs:3-9`: `LineCol` (line one-indexed, column zero-indexed). -/
structure LineCol where
  line : Nat
  col : Nat
deriving DecidableEq, Repr

/-- `chewed/src/position.rs:11-15`: `Default for LineCol`. -/
def LineCol.init : LineCol := ⟨1, 0⟩

/-- `chewed/src/error.rs:5-10`: `TakeError`. -/
inductive TakeError where
  | badBranch (pos : LineCol) (got : Char) (expected : List Char)
  | badString (pos : LineCol) (got : List Char) (expected : List Char)
  | endOfStream (pos : LineCol)
deriving DecidableEq, Repr

/-- `chewed/src/error.rs:45-49`: `ParseError`. -/
inductive ParseError where
  | take (e : TakeError)
  | inputContinues (pos : LineCol)
deriving DecidableEq, Repr

/-- `chewed/src/parse.rs:124-128`: `IterWrapper`: position, one character of
lookahead, underlying iterator (the characters it has yet to yield). -/
structure IW where
  pos : LineCol
  next : Option Char
  iter : List Char
deriving DecidableEq, Repr

/-- Outcome of a runtime call on an `IterWrapper`: `Ok` / `Err` with the new state,
a panic, or (model only) exhausted fuel. -/
inductive Res (α : Type) where
  | ok (a : α) (w : IW)
  | err (e : TakeError) (w : IW)
  | panic
  | oof
deriving Repr, DecidableEq

/-- `Result::map` on the value. -/
def Res.map {α β : Type} (f : α → β) : Res α → Res β
  | .ok a w => .ok (f a) w
  | .err e w => .err e w
  | .panic => .panic
  | .oof => .oof

/-- The `?` operator followed by the rest of the function. -/
def Res.bind {α β : Type} (r : Res α) (f : α → IW → Res β) : Res β :=
  match r with
  | .ok a w => f a w
  | .err e w => .err e w
  | .panic => .panic
  | .oof => .oof

/-- `chewed/src/parse.rs:131-137`: `IterWrapper::new`. -/
def IW.new (text : List Char) : IW := ⟨LineCol.init, none, text⟩

/-- `chewed/src/parse.rs:169-175`: `IterWrapper::peek`. -/
def IW.peek (w : IW) : Option Char × IW :=
  match w.next with
  | some c => (some c, w)
  | none =>
    match w.iter with
    | [] => (none, w)
    | c :: cs => (some c, { w with next := some c, iter := cs })

/-- `chewed/src/parse.rs:143-148`: the characters that `next` treats as line ends on
their own (LF, VT, FF, NEL, LS, PS); CR is treated separately. -/
def isBreak (c : Char) : Bool :=
  c == '\n' || c == '\x0B' || c == '\x0C' || c == '\u0085' || c == '\u2028' || c == '\u2029'

/-- `chewed/src/parse.rs:142`: `self.next.take().or_else(|| self.iter.next())`. -/
def IW.pull (w : IW) : Option Char × IW :=
  match w.next with
  | some c => (some c, { w with next := none })
  | none =>
    match w.iter with
    | [] => (none, w)
    | c :: cs => (some c, { w with iter := cs })

/-- `chewed/src/parse.rs:141-167`: `IterWrapper::next` (named `advance` because `next`
is the lookahead field).  Note that the last arm also runs for `None`. -/
def IW.advance (w : IW) : Option Char × IW :=
  match w.pull with
  | (some c, w) =>
    if isBreak c then (some c, { w with pos := ⟨w.pos.line + 1, 0⟩ })
    else if c == '\x0D' then
      match w.peek with
      | (p, w) =>
        if p == some '\n' then (some '\x0D', { w with pos := ⟨w.pos.line, w.pos.col + 1⟩ })
        else (some '\x0D', { w with pos := ⟨w.pos.line + 1, 0⟩ })
    else (some c, { w with pos := ⟨w.pos.line, w.pos.col + 1⟩ })
  | (none, w) => (none, { w with pos := ⟨w.pos.line, w.pos.col + 1⟩ })

/-- `&s[..n]` with a byte offset `n`: `none` models the panic when `n` is not a
character boundary or out of range (used in `chewed/src/parse.rs:35`). -/
def sliceTo : List Char → Nat → Option (List Char)
  | _, 0 => some []
  | [], _ + 1 => none
  | c :: cs, n + 1 =>
    if c.utf8Size ≤ n + 1 then (sliceTo cs (n + 1 - c.utf8Size)).map (c :: ·) else none

/-- `chewed/src/parse.rs:29-43`: the loop of `Parser::consume_str`; `count` counts
characters but is used as a byte offset. -/
def consumeGo (s : List Char) : Nat → List Char → IW → Res Unit
  | _, [], w => .ok () w
  | count, exp :: es, w =>
    match w.peek with
    | (some got, w) =>
      if got = exp then consumeGo s (count + 1) es w.advance.2
      else
        match sliceTo s count with
        | some pre => .err (.badString w.pos (pre ++ [got]) s) w
        | none => .panic
    | (none, w) => .err (.endOfStream w.pos) w

/-- `chewed/src/parse.rs:26-46`: `Parser::consume_str`. -/
def consumeStr (s : List Char) (w : IW) : Res Unit := consumeGo s 0 s w

/-- The number of characters the wrapper can still yield (model only; iteration bound). -/
def IW.left (w : IW) : Nat := w.next.toList.length + w.iter.length

/-- `chewed/src/parse.rs:48-52`: the loop of `Parser::skip_while`, run for at most the given
number of iterations. -/
def skipGo (f : Char → Bool) : Nat → IW → IW
  | 0, w => w.peek.2
  | n + 1, w =>
    match w.peek with
    | (some c, w) => if f c then skipGo f n w.advance.2 else w
    | (none, w) => w

/-- `chewed/src/parse.rs:48-52`: `Parser::skip_while`.  The predicate is taken to be a
pure function (the Rust signature allows a stateful `FnMut`).  The loop can run at most once per
remaining character, so the iteration bound is never the reason to stop
(`Chomp.skipWhile_spec` characterises the result without it). -/
def skipWhile (f : Char → Bool) (w : IW) : IW := skipGo f w.left w

/-- `chewed/src/parse.rs:54-64`: `Parser::take_chars_from`, for a buffer of length `n`;
the filled buffer is returned. -/
def takeCharsFrom (set : List Char) : Nat → IW → Res (List Char)
  | 0, w => .ok [] w
  | n + 1, w =>
    match w.advance with
    | (none, w) => .err (.endOfStream w.pos) w
    | (some c, w) =>
      if set.contains c then (takeCharsFrom set n w).map (c :: ·)
      else .err (.badBranch w.pos c set) w

/-- `chewed/src/parse.rs:66-94`: the data of an `Iter` (built by `iter_strict`, so
`strict_sep` is `true`). -/
structure IterCfg where
  sep : Char
  stop : Char
  sepStop : List Char
  first : List Char

/-- Outcome of one `Iter::next` call. -/
inductive IterOut (α : Type) where
  | done (w : IW)
  | item (r : Except TakeError α) (w : IW)
  | panic
  | oof

/-- `chewed/src/parse.rs:104-120`: the separator check after an item has been parsed
(`res` is the item's result, kept even if it is an error, see line 104). -/
def iterAfter {α : Type} (cfg : IterCfg) (res : Except TakeError α) (w : IW) : IterOut α :=
  match w.peek with
  | (none, w) => .item (.error (.endOfStream w.pos)) w
  | (some c, w) =>
    if c = cfg.sep then
      match w.advance.2.peek with
      | (none, w) => .item (.error (.endOfStream w.pos)) w
      | (some c, w) =>
        if cfg.first.contains c then .item res w
        else .item (.error (.badBranch w.pos c cfg.first)) w
    else if c = cfg.stop then .item res w
    else .item (.error (.badBranch w.pos c cfg.sepStop)) w

/-- `chewed/src/parse.rs:99-122`: `Iter::next` with `strict_sep = true`. -/
def iterNext {α : Type} (cfg : IterCfg) (item : IW → Res α) (w : IW) : IterOut α :=
  match w.peek with
  | (none, w) => .done w
  | (some c, w) =>
    if c = cfg.stop then .done w
    else
      match item w with
      | .ok a w => iterAfter cfg (.ok a) w
      | .err e w => iterAfter cfg (.error e) w
      | .panic => .panic
      | .oof => .oof

/-- `iter_strict(..).collect::<Result<Vec<_>, _>>()` (as used in
`chomp-bench/src/json/mod.rs:209-212,217-232`): call `Iter::next` until `None` or the first error.
Fuel bounds the number of items. -/
def collectIter {α : Type} (cfg : IterCfg) (item : IW → Res α) : Nat → IW → Res (List α)
  | 0, _ => .oof
  | n + 1, w =>
    match iterNext cfg item w with
    | .done w => .ok [] w
    | .item (.ok a) w => (collectIter cfg item n w).map (a :: ·)
    | .item (.error e) w => .err e w
    | .panic => .panic
    | .oof => .oof

/-- Result of `Parse::parse`. -/
inductive ParseRes (α : Type) where
  | ok (a : α)
  | err (e : ParseError)
  | panic
  | oof
deriving Repr, DecidableEq

/-- `chewed/src/parse.rs:185-193`: `Parse::parse`, for a given `take`. -/
def parseWith {α : Type} (take : IW → Res α) (w : IW) : ParseRes α :=
  match take w with
  | .ok a w =>
    match w.peek with
    | (some _, w) => .err (.inputContinues w.pos)
    | (none, _) => .ok a
  | .err e _ => .err (.take e)
  | .panic => .panic
  | .oof => .oof

/-- `chewed/src/parse.rs:199-201`: `Parse::parse_str`. -/
def parseStr {α : Type} (take : IW → Res α) (input : List Char) : ParseRes α :=
  parseWith take (IW.new input)

end Chomp
