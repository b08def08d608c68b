import Verif.Lower.Rust

/-!
# The tokens of the emitted program: the `quote!` templates of `/repo/src/lower/mod.rs`

`Verif/Lower/Rust.lean` describes the emitted program by its items.  Here every template is written out,
token by token, so that an item becomes the tokens that the backend writes for it.

Simplifications: spans are left out; groups are flattened into their delimiters; punctuation of two
characters (`::`, `->`, `=>`) is one token; a literal is its value; the text of the doc comment of a
literal is an arbitrary function of the literal (`format!("{:?}")`).
-/

namespace Chomp

/-- `proc_macro2::TokenTree`, see above. -/
inductive RTok where
  /-- an identifier or keyword -/
  | id (s : String)
  /-- punctuation -/
  | op (s : String)
  /-- an opening delimiter -/
  | opn (c : Char)
  /-- a closing delimiter -/
  | cls (c : Char)
  /-- a string literal -/
  | str (s : List Char)
  /-- a character literal -/
  | chr (c : Char)
  /-- a number (`syn::Index`) -/
  | int (n : Nat)
deriving DecidableEq, Repr

/-! ## The parts of the templates that do not depend on the grammar -/

/-- `src/lower/mod.rs:429`: `use ::chewed::*;` -/
def Q.use : List RTok :=
  [.id "use", .op "::", .id "chewed", .op "::", .op "*", .op ";"]

/-- `src/lower/mod.rs:183`: `#[doc=` -/
def Q.doc : List RTok :=
  [.op "#", .opn '[', .id "doc", .op "="]

/-- `src/lower/mod.rs:183`: `]` -/
def Q.docEnd : List RTok :=
  [.cls ']']

/-- `src/lower/mod.rs:184,236,257,319`: `#[derive(Clone, Debug, Eq, Hash, PartialEq)]` -/
def Q.derive : List RTok :=
  [.op "#", .opn '[', .id "derive", .opn '(', .id "Clone", .op ",", .id "Debug", .op ",", .id "Eq", .op ",",
    .id "Hash", .op ",", .id "PartialEq", .cls ')', .cls ']']

/-- `src/lower/mod.rs:185,237,258`: `pub struct` -/
def Q.pubStruct : List RTok :=
  [.id "pub", .id "struct"]

/-- `src/lower/mod.rs:320`: `pub enum` -/
def Q.pubEnum : List RTok :=
  [.id "pub", .id "enum"]

/-- `src/lower/mod.rs:401,453,457`: `pub type` -/
def Q.pubType : List RTok :=
  [.id "pub", .id "type"]

/-- `src/lower/mod.rs:187,241,260,324`: `impl ::std::fmt::Display for` -/
def Q.implDisplay : List RTok :=
  [.id "impl", .op "::", .id "std", .op "::", .id "fmt", .op "::", .id "Display", .id "for"]

/-- `src/lower/mod.rs:187-188,241-242,260-261,324-325`: `{ fn fmt(&self, f: &mut ::std::fmt::Formatter<'_>) -> ::std::fmt::Result {` -/
def Q.fnFmt : List RTok :=
  [.opn '{', .id "fn", .id "fmt", .opn '(', .op "&", .id "self", .op ",", .id "f", .op ":", .op "&", .id "mut",
    .op "::", .id "std", .op "::", .id "fmt", .op "::", .id "Formatter", .op "<", .op "'", .id "_", .op ">",
    .cls ')', .op "->", .op "::", .id "std", .op "::", .id "fmt", .op "::", .id "Result", .opn '{']

/-- `src/lower/mod.rs:193,248,267,335,346`: `impl Parse for` -/
def Q.implParse : List RTok :=
  [.id "impl", .id "Parse", .id "for"]

/-- `src/lower/mod.rs:193-194,248-249,267-268,335-336,346-347`: `{ fn take<P: Parser + ?Sized>(input: &mut P) -> Result<Self, TakeError> {` -/
def Q.fnTake : List RTok :=
  [.opn '{', .id "fn", .id "take", .op "<", .id "P", .op ":", .id "Parser", .op "+", .op "?", .id "Sized",
    .op ">", .opn '(', .id "input", .op ":", .op "&", .id "mut", .id "P", .cls ')', .op "->", .id "Result",
    .op "<", .id "Self", .op ",", .id "TakeError", .op ">", .opn '{']

/-- the end of a function and of its `impl`: `} }` -/
def Q.close : List RTok :=
  [.cls '}', .cls '}']

/-- `src/lower/mod.rs:189`: `write!(f, "{}",` -/
def Q.write : List RTok :=
  [.id "write", .op "!", .opn '(', .id "f", .op ",", .str ['{', '}'], .op ","]

/-- `src/lower/mod.rs:195`: `input.consume_str(` -/
def Q.consume : List RTok :=
  [.id "input", .op ".", .id "consume_str", .opn '(']

/-- `src/lower/mod.rs:195`: `).map(|()|` -/
def Q.mapUnit : List RTok :=
  [.cls ')', .op ".", .id "map", .opn '(', .op "|", .opn '(', .cls ')', .op "|"]

/-- `src/lower/mod.rs:203,361`: `impl From<` -/
def Q.fromOpen : List RTok :=
  [.id "impl", .id "From", .op "<"]

/-- `src/lower/mod.rs:203-204`: `> for char { fn from(_:` -/
def Q.fromLit : List RTok :=
  [.op ">", .id "for", .id "char", .opn '{', .id "fn", .id "from", .opn '(', .id "_", .op ":"]

/-- `src/lower/mod.rs:361-362`: `> for char { fn from(alt:` -/
def Q.fromAlt : List RTok :=
  [.op ">", .id "for", .id "char", .opn '{', .id "fn", .id "from", .opn '(', .id "alt", .op ":"]

/-- `src/lower/mod.rs:204,362`: `) -> Self {` -/
def Q.toSelf : List RTok :=
  [.cls ')', .op "->", .id "Self", .opn '{']

/-- `src/lower/mod.rs:363`: `match alt {` -/
def Q.matchAlt : List RTok :=
  [.id "match", .id "alt", .opn '{']

/-- `src/lower/mod.rs:364`: `(inner) => inner.into()` -/
def Q.innerInto : List RTok :=
  [.opn '(', .id "inner", .cls ')', .op "=>", .id "inner", .op ".", .id "into", .opn '(', .cls ')']

/-- `src/lower/mod.rs:243,262`: `self.` -/
def Q.selfDot : List RTok :=
  [.id "self", .op "."]

/-- `src/lower/mod.rs:243,262`: `.fmt(f)?;` -/
def Q.dotFmt : List RTok :=
  [.op ".", .id "fmt", .opn '(', .id "f", .cls ')', .op "?", .op ";"]

/-- `src/lower/mod.rs:244,263`: `Ok(())` -/
def Q.okUnit : List RTok :=
  [.id "Ok", .opn '(', .opn '(', .cls ')', .cls ')']

/-- `src/lower/mod.rs:250,269`: `let` -/
def Q.let_ : List RTok :=
  [.id "let"]

/-- `src/lower/mod.rs:250,269`: `= input.take()?;` -/
def Q.take : List RTok :=
  [.op "=", .id "input", .op ".", .id "take", .opn '(', .cls ')', .op "?", .op ";"]

/-- `src/lower/mod.rs:251`: `Ok(Self {` -/
def Q.okNamed : List RTok :=
  [.id "Ok", .opn '(', .id "Self", .opn '{']

/-- `src/lower/mod.rs:270`: `Ok(Self(` -/
def Q.okTuple : List RTok :=
  [.id "Ok", .opn '(', .id "Self", .opn '(']

/-- `src/lower/mod.rs:326`: `match self {` -/
def Q.matchSelf : List RTok :=
  [.id "match", .id "self", .opn '{']

/-- `src/lower/mod.rs:327`: `Self::` -/
def Q.selfPath : List RTok :=
  [.id "Self", .op "::"]

/-- `src/lower/mod.rs:327`: `(inner) => inner.fmt(f)` -/
def Q.innerFmt : List RTok :=
  [.opn '(', .id "inner", .cls ')', .op "=>", .id "inner", .op ".", .id "fmt", .opn '(', .id "f", .cls ')']

/-- `src/lower/mod.rs:337,348`: `match input.peek() {` -/
def Q.matchPeek : List RTok :=
  [.id "match", .id "input", .op ".", .id "peek", .opn '(', .cls ')', .opn '{']

/-- `src/lower/mod.rs:338-339,349`: `=> Ok(Self::` -/
def Q.armOk : List RTok :=
  [.op "=>", .id "Ok", .opn '(', .id "Self", .op "::"]

/-- `src/lower/mod.rs:338-339,349`: `(input.take()?)),` -/
def Q.armTake : List RTok :=
  [.opn '(', .id "input", .op ".", .id "take", .opn '(', .cls ')', .op "?", .cls ')', .cls ')', .op ","]

/-- `src/lower/mod.rs:350`: `Some(c) => Err(TakeError::BadBranch(input.pos(), c, &[` -/
def Q.badBranch : List RTok :=
  [.id "Some", .opn '(', .id "c", .cls ')', .op "=>", .id "Err", .opn '(', .id "TakeError", .op "::",
    .id "BadBranch", .opn '(', .id "input", .op ".", .id "pos", .opn '(', .cls ')', .op ",", .id "c", .op ",",
    .op "&", .opn '[']

/-- `src/lower/mod.rs:350-351`: `])), None => Err(TakeError::EndOfStream(input.pos()))` -/
def Q.endOfStream : List RTok :=
  [.cls ']', .cls ')', .cls ')', .op ",", .id "None", .op "=>", .id "Err", .opn '(', .id "TakeError", .op "::",
    .id "EndOfStream", .opn '(', .id "input", .op ".", .id "pos", .opn '(', .cls ')', .cls ')', .cls ')']


/-! ## The templates -/

/-- `#(...)s*` of `quote!`: the pieces with a separator between them. -/
def sepToks (s : RTok) : List (List RTok) → List RTok
  | [] => []
  | x :: l =>
    match l with
    | [] => x
    | _ :: _ => x ++ [s] ++ sepToks s l

/-- `#(...)*` of `quote!`. -/
def manyToks : List (List RTok) → List RTok
  | [] => []
  | x :: l => x ++ manyToks l

/-- The tokens of a type: `src/lower/mod.rs:165,416`. -/
def RTy.toks : RTy → List RTok
  | .path x => [.id x]
  | .boxed t => [.id "Box", .op "<"] ++ t.toks ++ [.op ">"]

/-- `src/lower/mod.rs:187-191`, and the same in the other templates: the `impl` of `Display` for the type `name`
with the given body. -/
def displayToks (name : String) (body : List RTok) : List RTok :=
  Q.implDisplay ++ [.id name] ++ Q.fnFmt ++ body ++ Q.close

/-- `src/lower/mod.rs:193-197`, and the same in the other templates: the `impl` of `Parse`. -/
def parseToks (name : String) (body : List RTok) : List RTok :=
  Q.implParse ++ [.id name] ++ Q.fnTake ++ body ++ Q.close

/-- `src/lower/mod.rs:182-209`: the template of a literal.  `text` is displayed, `consume` is consumed. -/
def litToks (doc : List Char → List Char) (name : String) (text consume : List Char) (toChar : Option Char) : List RTok :=
  Q.doc ++ [.str (doc text)] ++ Q.docEnd ++ Q.derive ++ Q.pubStruct ++ [.id name] ++ [.op ";"] ++
    displayToks name (Q.write ++ [.str text] ++ [.cls ')']) ++
    parseToks name (Q.consume ++ [.str consume] ++ Q.mapUnit ++ [.id name] ++ [.cls ')']) ++
    match toChar with
    | none => []
    | some c => Q.fromOpen ++ [.id name] ++ Q.fromLit ++ [.id name] ++ Q.toSelf ++ [.chr c] ++ Q.close

/-- `src/lower/mod.rs:250,269`: `#(let #number_parts = input.take()?;)*`. -/
def letToks (lets : List String) : List RTok := manyToks (lets.map fun x => Q.let_ ++ [.id x] ++ Q.take)

/-- `src/lower/mod.rs:235-254`: the template of a concatenation with named parts. -/
def namedToks (name : String) (fields : List (String × List RTok)) (shown lets : List String)
    (build : List (String × String)) : List RTok :=
  Q.derive ++ Q.pubStruct ++ [.id name] ++ [.opn '{'] ++
    sepToks (.op ",") (fields.map fun f => [.id "pub"] ++ [.id f.1] ++ [.op ":"] ++ f.2) ++ [.cls '}'] ++
    displayToks name (manyToks (shown.map fun x => Q.selfDot ++ [.id x] ++ Q.dotFmt) ++ Q.okUnit) ++
    parseToks name (letToks lets ++ Q.okNamed ++
      sepToks (.op ",") (build.map fun b => [.id b.1] ++ [.op ":"] ++ [.id b.2]) ++ [.cls '}'] ++ [.cls ')'])

/-- `src/lower/mod.rs:256-273`: the template of a concatenation whose parts have no names. -/
def tupleToks (name : String) (fields : List (List RTok)) (shown : List Nat) (lets build : List String) : List RTok :=
  Q.derive ++ Q.pubStruct ++ [.id name] ++ [.opn '('] ++
    sepToks (.op ",") (fields.map fun f => [.id "pub"] ++ f) ++ [.cls ')'] ++ [.op ";"] ++
    displayToks name (manyToks (shown.map fun x => Q.selfDot ++ [.int x] ++ Q.dotFmt) ++ Q.okUnit) ++
    parseToks name (letToks lets ++ Q.okTuple ++ sepToks (.op ",") (build.map fun b => [.id b]) ++ [.cls ')'] ++ [.cls ')'])

/-- `src/lower/mod.rs:309`: `#(Some(#fs))|*`. -/
def someToks (fs : List Char) : List RTok :=
  sepToks (.op "|") (fs.map fun c => [.id "Some"] ++ [.opn '('] ++ [.chr c] ++ [.cls ')'])

/-- `src/lower/mod.rs:338,349`: `#(#firsts => Ok(Self::#first_alts(input.take()?)),)*`. -/
def armToks (arms : List (List Char × String)) : List RTok :=
  manyToks (arms.map fun a => someToks a.1 ++ Q.armOk ++ [.id a.2] ++ Q.armTake)

/-- `src/lower/mod.rs:339,350-351`: the last arms. -/
def otherToks : ROther → List RTok
  | .take v => [.id "_"] ++ Q.armOk ++ [.id v] ++ Q.armTake
  | .fail expected => Q.badBranch ++ sepToks (.op ",") (expected.map fun c => [.chr c]) ++ Q.endOfStream

/-- `src/lower/mod.rs:318-369`: the template of an alternation. -/
def enumToks (name : String) (variants : List (String × List RTok)) (shown : List String) (arms : List (List Char × String))
    (other : ROther) (chars : Option (List String)) : List RTok :=
  Q.derive ++ Q.pubEnum ++ [.id name] ++ [.opn '{'] ++
    sepToks (.op ",") (variants.map fun v => [.id v.1] ++ [.opn '('] ++ v.2 ++ [.cls ')']) ++ [.cls '}'] ++
    displayToks name (Q.matchSelf ++ sepToks (.op ",") (shown.map fun x => Q.selfPath ++ [.id x] ++ Q.innerFmt) ++ [.cls '}']) ++
    parseToks name (Q.matchPeek ++ armToks arms ++ otherToks other ++ [.cls '}']) ++
    match chars with
    | none => []
    | some xs => Q.fromOpen ++ [.id name] ++ Q.fromAlt ++ [.id name] ++ Q.toSelf ++ Q.matchAlt ++
        sepToks (.op ",") (xs.map fun x => [.id name] ++ [.op "::"] ++ [.id x] ++ Q.innerInto) ++ [.cls '}'] ++ Q.close

/-- `src/lower/mod.rs:401,453,457`: `pub type #name = #ty;`. -/
def aliasToks (name : String) (ty : List RTok) : List RTok := Q.pubType ++ [.id name] ++ [.op "="] ++ ty ++ [.op ";"]

/-- The tokens of an item. -/
def RItem.toks (doc : List Char → List Char) : RItem → List RTok
  | .unit n text consume c => litToks doc n text consume c
  | .named n fields shown lets build => namedToks n (fields.map fun f => (f.1, f.2.toks)) shown lets build
  | .tuple n fields shown lets build => tupleToks n (fields.map RTy.toks) shown lets build
  | .enum n variants shown arms other chars => enumToks n (variants.map fun f => (f.1, f.2.toks)) shown arms other chars
  | .alias n t => aliasToks n t.toks

/-- The tokens of a program: `src/lower/mod.rs:427-462`. -/
def RProg.toks (doc : List Char → List Char) (p : RProg) : List RTok := Q.use ++ manyToks (p.map (RItem.toks doc))

end Chomp
