import Verif.Lower.Tokens

/-!
# Reading an emitted program

A reader for the part of Rust that the backend writes: from tokens to items.  It is the specification of
what a sequence of tokens means: `use ::chewed::*;`, and items of five forms, each followed by its
`impl`s.  Nothing else is accepted, apart from the text of doc comments, which means nothing.
-/

namespace Chomp

/-- `use ::chewed::*;` -/
def R.use : List RTok :=
  [.id "use", .op "::", .id "chewed", .op "::", .op "*", .op ";"]

/-- `#[doc=` -/
def R.doc : List RTok :=
  [.op "#", .opn '[', .id "doc", .op "="]

/-- `]` -/
def R.docEnd : List RTok :=
  [.cls ']']

/-- `#[derive(Clone, Debug, Eq, Hash, PartialEq)]` -/
def R.derive : List RTok :=
  [.op "#", .opn '[', .id "derive", .opn '(', .id "Clone", .op ",", .id "Debug", .op ",", .id "Eq", .op ",",
    .id "Hash", .op ",", .id "PartialEq", .cls ')', .cls ']']

/-- `pub struct` -/
def R.pubStruct : List RTok :=
  [.id "pub", .id "struct"]

/-- `pub enum` -/
def R.pubEnum : List RTok :=
  [.id "pub", .id "enum"]

/-- `pub type` -/
def R.pubType : List RTok :=
  [.id "pub", .id "type"]

/-- `impl ::std::fmt::Display for` -/
def R.implDisplay : List RTok :=
  [.id "impl", .op "::", .id "std", .op "::", .id "fmt", .op "::", .id "Display", .id "for"]

/-- `{ fn fmt(&self, f: &mut ::std::fmt::Formatter<'_>) -> ::std::fmt::Result {` -/
def R.fnFmt : List RTok :=
  [.opn '{', .id "fn", .id "fmt", .opn '(', .op "&", .id "self", .op ",", .id "f", .op ":", .op "&", .id "mut",
    .op "::", .id "std", .op "::", .id "fmt", .op "::", .id "Formatter", .op "<", .op "'", .id "_", .op ">",
    .cls ')', .op "->", .op "::", .id "std", .op "::", .id "fmt", .op "::", .id "Result", .opn '{']

/-- `impl Parse for` -/
def R.implParse : List RTok :=
  [.id "impl", .id "Parse", .id "for"]

/-- `{ fn take<P: Parser + ?Sized>(input: &mut P) -> Result<Self, TakeError> {` -/
def R.fnTake : List RTok :=
  [.opn '{', .id "fn", .id "take", .op "<", .id "P", .op ":", .id "Parser", .op "+", .op "?", .id "Sized",
    .op ">", .opn '(', .id "input", .op ":", .op "&", .id "mut", .id "P", .cls ')', .op "->", .id "Result",
    .op "<", .id "Self", .op ",", .id "TakeError", .op ">", .opn '{']

/-- `} }` -/
def R.close : List RTok :=
  [.cls '}', .cls '}']

/-- `write!(f, "{}",` -/
def R.write : List RTok :=
  [.id "write", .op "!", .opn '(', .id "f", .op ",", .str ['{', '}'], .op ","]

/-- `input.consume_str(` -/
def R.consume : List RTok :=
  [.id "input", .op ".", .id "consume_str", .opn '(']

/-- `).map(|()|` -/
def R.mapUnit : List RTok :=
  [.cls ')', .op ".", .id "map", .opn '(', .op "|", .opn '(', .cls ')', .op "|"]

/-- `impl From<` -/
def R.fromOpen : List RTok :=
  [.id "impl", .id "From", .op "<"]

/-- `> for char { fn from(_:` -/
def R.fromLit : List RTok :=
  [.op ">", .id "for", .id "char", .opn '{', .id "fn", .id "from", .opn '(', .id "_", .op ":"]

/-- `> for char { fn from(alt:` -/
def R.fromAlt : List RTok :=
  [.op ">", .id "for", .id "char", .opn '{', .id "fn", .id "from", .opn '(', .id "alt", .op ":"]

/-- `) -> Self {` -/
def R.toSelf : List RTok :=
  [.cls ')', .op "->", .id "Self", .opn '{']

/-- `match alt {` -/
def R.matchAlt : List RTok :=
  [.id "match", .id "alt", .opn '{']

/-- `(inner) => inner.into()` -/
def R.innerInto : List RTok :=
  [.opn '(', .id "inner", .cls ')', .op "=>", .id "inner", .op ".", .id "into", .opn '(', .cls ')']

/-- `self.` -/
def R.selfDot : List RTok :=
  [.id "self", .op "."]

/-- `.fmt(f)?;` -/
def R.dotFmt : List RTok :=
  [.op ".", .id "fmt", .opn '(', .id "f", .cls ')', .op "?", .op ";"]

/-- `Ok(())` -/
def R.okUnit : List RTok :=
  [.id "Ok", .opn '(', .opn '(', .cls ')', .cls ')']

/-- `let` -/
def R.let_ : List RTok :=
  [.id "let"]

/-- `= input.take()?;` -/
def R.take : List RTok :=
  [.op "=", .id "input", .op ".", .id "take", .opn '(', .cls ')', .op "?", .op ";"]

/-- `Ok(Self {` -/
def R.okNamed : List RTok :=
  [.id "Ok", .opn '(', .id "Self", .opn '{']

/-- `Ok(Self(` -/
def R.okTuple : List RTok :=
  [.id "Ok", .opn '(', .id "Self", .opn '(']

/-- `match self {` -/
def R.matchSelf : List RTok :=
  [.id "match", .id "self", .opn '{']

/-- `Self::` -/
def R.selfPath : List RTok :=
  [.id "Self", .op "::"]

/-- `(inner) => inner.fmt(f)` -/
def R.innerFmt : List RTok :=
  [.opn '(', .id "inner", .cls ')', .op "=>", .id "inner", .op ".", .id "fmt", .opn '(', .id "f", .cls ')']

/-- `match input.peek() {` -/
def R.matchPeek : List RTok :=
  [.id "match", .id "input", .op ".", .id "peek", .opn '(', .cls ')', .opn '{']

/-- `=> Ok(Self::` -/
def R.armOk : List RTok :=
  [.op "=>", .id "Ok", .opn '(', .id "Self", .op "::"]

/-- `(input.take()?)),` -/
def R.armTake : List RTok :=
  [.opn '(', .id "input", .op ".", .id "take", .opn '(', .cls ')', .op "?", .cls ')', .cls ')', .op ","]

/-- `Some(c) => Err(TakeError::BadBranch(input.pos(), c, &[` -/
def R.badBranch : List RTok :=
  [.id "Some", .opn '(', .id "c", .cls ')', .op "=>", .id "Err", .opn '(', .id "TakeError", .op "::",
    .id "BadBranch", .opn '(', .id "input", .op ".", .id "pos", .opn '(', .cls ')', .op ",", .id "c", .op ",",
    .op "&", .opn '[']

/-- `])), None => Err(TakeError::EndOfStream(input.pos()))` -/
def R.endOfStream : List RTok :=
  [.cls ']', .cls ')', .cls ')', .op ",", .id "None", .op "=>", .id "Err", .opn '(', .id "TakeError", .op "::",
    .id "EndOfStream", .opn '(', .id "input", .op ".", .id "pos", .opn '(', .cls ')', .cls ')', .cls ')']


/-- The given tokens come next. -/
def eat : List RTok → List RTok → Option (List RTok)
  | [], ts => some ts
  | a :: p, b :: ts => if a = b then eat p ts else none
  | _ :: _, [] => none

/-- An identifier. -/
def readId : List RTok → Option (String × List RTok)
  | .id x :: ts => some (x, ts)
  | _ => none

/-- A string literal. -/
def readStr : List RTok → Option (List Char × List RTok)
  | .str x :: ts => some (x, ts)
  | _ => none

/-- A character literal. -/
def readChr : List RTok → Option (Char × List RTok)
  | .chr x :: ts => some (x, ts)
  | _ => none

/-- A number. -/
def readInt : List RTok → Option (Nat × List RTok)
  | .int x :: ts => some (x, ts)
  | _ => none

/-- One or more things with separators between them, up to the token `stop`; fuel bounds their number. -/
def readMore {α : Type} (r : List RTok → Option (α × List RTok)) (sep stop : RTok) : Nat → List RTok → Option (List α × List RTok)
  | 0, _ => none
  | n + 1, ts => do
    let (a, ts) ← r ts
    match eat [sep] ts with
    | some ts => do
      let (l, ts) ← readMore r sep stop n ts
      some (a :: l, ts)
    | none => do
      let ts ← eat [stop] ts
      some ([a], ts)

/-- Things with separators between them, up to the token `stop`. -/
def readSep {α : Type} (r : List RTok → Option (α × List RTok)) (sep stop : RTok) (ts : List RTok) : Option (List α × List RTok) :=
  match eat [stop] ts with
  | some ts => some ([], ts)
  | none => readMore r sep stop ts.length ts

/-- Things that all start with the tokens `start`; fuel bounds their number. -/
def readWhile {α : Type} (start : List RTok) (r : List RTok → Option (α × List RTok)) : Nat → List RTok → Option (List α × List RTok)
  | 0, _ => none
  | n + 1, ts =>
    match eat start ts with
    | none => some ([], ts)
    | some ts => do
      let (a, ts) ← r ts
      let (l, ts) ← readWhile start r n ts
      some (a :: l, ts)

/-- A type; fuel bounds its depth. -/
def readTy : Nat → List RTok → Option (RTy × List RTok)
  | 0, _ => none
  | n + 1, ts =>
    match eat [.id "Box", .op "<"] ts with
    | some ts => do
      let (t, ts) ← readTy n ts
      let ts ← eat [.op ">"] ts
      some (.boxed t, ts)
    | none => do
      let (x, ts) ← readId ts
      some (.path x, ts)

/-- `pub name: type`. -/
def readField (ts : List RTok) : Option ((String × RTy) × List RTok) := do
  let ts ← eat [.id "pub"] ts
  let (x, ts) ← readId ts
  let ts ← eat [.op ":"] ts
  let (t, ts) ← readTy ts.length ts
  some ((x, t), ts)

/-- `pub type`. -/
def readIndexed (ts : List RTok) : Option (RTy × List RTok) := do
  let ts ← eat [.id "pub"] ts
  readTy ts.length ts

/-- `name(type)`. -/
def readVariant (ts : List RTok) : Option ((String × RTy) × List RTok) := do
  let (x, ts) ← readId ts
  let ts ← eat [.opn '('] ts
  let (t, ts) ← readTy ts.length ts
  let ts ← eat [.cls ')'] ts
  some ((x, t), ts)

/-- The start of the `impl` of `Display` for the type `name`. -/
def eatDisplay (name : String) (ts : List RTok) : Option (List RTok) := do
  let ts ← eat R.implDisplay ts
  let ts ← eat [.id name] ts
  eat R.fnFmt ts

/-- The start of the `impl` of `Parse` for the type `name`. -/
def eatParse (name : String) (ts : List RTok) : Option (List RTok) := do
  let ts ← eat R.implParse ts
  let ts ← eat [.id name] ts
  eat R.fnTake ts

/-- `x = input.take()?;`, after `let`. -/
def readLet (ts : List RTok) : Option (String × List RTok) := do
  let (x, ts) ← readId ts
  let ts ← eat R.take ts
  some (x, ts)

/-- `x.fmt(f)?;`, after `self.`. -/
def readShown (ts : List RTok) : Option (String × List RTok) := do
  let (x, ts) ← readId ts
  let ts ← eat R.dotFmt ts
  some (x, ts)

/-- `0.fmt(f)?;`, after `self.`. -/
def readShownIdx (ts : List RTok) : Option (Nat × List RTok) := do
  let (x, ts) ← readInt ts
  let ts ← eat R.dotFmt ts
  some (x, ts)

/-- `name: variable`. -/
def readBuild (ts : List RTok) : Option ((String × String) × List RTok) := do
  let (x, ts) ← readId ts
  let ts ← eat [.op ":"] ts
  let (y, ts) ← readId ts
  some ((x, y), ts)

/-- `Self::name(inner) => inner.fmt(f)`. -/
def readFmtArm (ts : List RTok) : Option (String × List RTok) := do
  let ts ← eat R.selfPath ts
  let (x, ts) ← readId ts
  let ts ← eat R.innerFmt ts
  some (x, ts)

/-- `type::name(inner) => inner.into()`. -/
def readIntoArm (name : String) (ts : List RTok) : Option (String × List RTok) := do
  let ts ← eat [.id name] ts
  let ts ← eat [.op "::"] ts
  let (x, ts) ← readId ts
  let ts ← eat R.innerInto ts
  some (x, ts)

/-- `Some('c')`. -/
def readSome (ts : List RTok) : Option (Char × List RTok) := do
  let ts ← eat [.id "Some", .opn '('] ts
  let (c, ts) ← readChr ts
  let ts ← eat [.cls ')'] ts
  some (c, ts)

/-- `Ok(Self::name(input.take()?)),`, after `=>`. -/
def readTake (ts : List RTok) : Option (String × List RTok) := do
  let ts ← eat (.id "Ok" :: .opn '(' :: R.selfPath) ts
  let (x, ts) ← readId ts
  let ts ← eat R.armTake ts
  some (x, ts)

/-- The arms of `match input.peek() { ... }`, up to the closing brace: arms for characters, followed by `_ => ...,` or
by the two arms that return errors.  Fuel bounds their number. -/
def readArms : Nat → List RTok → Option ((List (List Char × String) × ROther) × List RTok)
  | 0, _ => none
  | n + 1, ts =>
    match eat [.id "_", .op "=>"] ts with
    | some ts => do
      let (x, ts) ← readTake ts
      let ts ← eat [.cls '}'] ts
      some (([], .take x), ts)
    | none =>
      match eat R.badBranch ts with
      | some ts => do
        let (l, ts) ← readSep readChr (.op ",") (.cls ']') ts
        let ts ← eat (R.endOfStream.drop 1) ts
        let ts ← eat [.cls '}'] ts
        some (([], .fail l), ts)
      | none => do
        let (fs, ts) ← readSep readSome (.op "|") (.op "=>") ts
        let (x, ts) ← readTake ts
        let ((l, o), ts) ← readArms n ts
        some (((fs, x) :: l, o), ts)

/-- After `pub struct name` of a literal. -/
def readUnit (name : String) (ts : List RTok) : Option (RItem × List RTok) := do
  let ts ← eat [.op ";"] ts
  let ts ← eatDisplay name ts
  let ts ← eat R.write ts
  let (text, ts) ← readStr ts
  let ts ← eat (.cls ')' :: R.close) ts
  let ts ← eatParse name ts
  let ts ← eat R.consume ts
  let (consume, ts) ← readStr ts
  let ts ← eat R.mapUnit ts
  let ts ← eat [.id name] ts
  let ts ← eat (.cls ')' :: R.close) ts
  match eat R.fromOpen ts with
  | none => some (.unit name text consume none, ts)
  | some ts => do
    let ts ← eat [.id name] ts
    let ts ← eat R.fromLit ts
    let ts ← eat [.id name] ts
    let ts ← eat R.toSelf ts
    let (c, ts) ← readChr ts
    let ts ← eat R.close ts
    some (.unit name text consume (some c), ts)

/-- After `pub struct name {`. -/
def readNamed (name : String) (ts : List RTok) : Option (RItem × List RTok) := do
  let (fields, ts) ← readSep readField (.op ",") (.cls '}') ts
  let ts ← eatDisplay name ts
  let (shown, ts) ← readWhile R.selfDot readShown ts.length ts
  let ts ← eat (R.okUnit ++ R.close) ts
  let ts ← eatParse name ts
  let (lets, ts) ← readWhile R.let_ readLet ts.length ts
  let ts ← eat R.okNamed ts
  let (build, ts) ← readSep readBuild (.op ",") (.cls '}') ts
  let ts ← eat (.cls ')' :: R.close) ts
  some (.named name fields shown lets build, ts)

/-- After `pub struct name(`. -/
def readTuple (name : String) (ts : List RTok) : Option (RItem × List RTok) := do
  let (fields, ts) ← readSep readIndexed (.op ",") (.cls ')') ts
  let ts ← eat [.op ";"] ts
  let ts ← eatDisplay name ts
  let (shown, ts) ← readWhile R.selfDot readShownIdx ts.length ts
  let ts ← eat (R.okUnit ++ R.close) ts
  let ts ← eatParse name ts
  let (lets, ts) ← readWhile R.let_ readLet ts.length ts
  let ts ← eat R.okTuple ts
  let (build, ts) ← readSep readId (.op ",") (.cls ')') ts
  let ts ← eat (.cls ')' :: R.close) ts
  some (.tuple name fields shown lets build, ts)

/-- After `pub enum name {`. -/
def readEnum (name : String) (ts : List RTok) : Option (RItem × List RTok) := do
  let (variants, ts) ← readSep readVariant (.op ",") (.cls '}') ts
  let ts ← eatDisplay name ts
  let ts ← eat R.matchSelf ts
  let (shown, ts) ← readSep readFmtArm (.op ",") (.cls '}') ts
  let ts ← eat R.close ts
  let ts ← eatParse name ts
  let ts ← eat R.matchPeek ts
  let ((arms, other), ts) ← readArms ts.length ts
  let ts ← eat R.close ts
  match eat R.fromOpen ts with
  | none => some (.enum name variants shown arms other none, ts)
  | some ts => do
    let ts ← eat [.id name] ts
    let ts ← eat R.fromAlt ts
    let ts ← eat [.id name] ts
    let ts ← eat R.toSelf ts
    let ts ← eat R.matchAlt ts
    let (xs, ts) ← readSep (readIntoArm name) (.op ",") (.cls '}') ts
    let ts ← eat R.close ts
    some (.enum name variants shown arms other (some xs), ts)

/-- After `pub type`. -/
def readAlias (ts : List RTok) : Option (RItem × List RTok) := do
  let (name, ts) ← readId ts
  let ts ← eat [.op "="] ts
  let (t, ts) ← readTy ts.length ts
  let ts ← eat [.op ";"] ts
  some (.alias name t, ts)

/-- An item with its `impl`s. -/
def readItem (ts : List RTok) : Option (RItem × List RTok) :=
  match eat R.pubType ts with
  | some ts => readAlias ts
  | none =>
    match eat R.doc ts with
    | some ts => do
      let (_, ts) ← readStr ts
      let ts ← eat (R.docEnd ++ R.derive ++ R.pubStruct) ts
      let (name, ts) ← readId ts
      readUnit name ts
    | none => do
      let ts ← eat R.derive ts
      match eat R.pubEnum ts with
      | some ts => do
        let (name, ts) ← readId ts
        let ts ← eat [.opn '{'] ts
        readEnum name ts
      | none => do
        let ts ← eat R.pubStruct ts
        let (name, ts) ← readId ts
        match eat [.opn '{'] ts with
        | some ts => readNamed name ts
        | none => do
          let ts ← eat [.opn '('] ts
          readTuple name ts

/-- All items up to the end; fuel bounds their number. -/
def readItems : Nat → List RTok → Option RProg
  | _, [] => some []
  | 0, _ :: _ => none
  | n + 1, ts@(_ :: _) => do
    let (i, ts) ← readItem ts
    let l ← readItems n ts
    some (i :: l)

/-- A program. -/
def readProgram (ts : List RTok) : Option RProg := do
  let ts ← eat R.use ts
  readItems ts.length ts

end Chomp
