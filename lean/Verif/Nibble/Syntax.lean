import Verif.Nibble.Model

/-!
# Parsing and printing nibble programs as tokens

`/repo/src/nibble/mod.rs`: the `Parse` and `ToTokens` implementations.

Spans of tokens and trees are left out: the trees built here have all their spans 0.  Errors are not
distinguished.  Tokens come from `proc_macro2`; punctuation is one character at a time (`syn` ignores the
spacing after the last character of a token, and all tokens used here have one character).  Groups with
no delimiter, which only macro expansion produces, are left out.
-/

namespace Chomp

/-- `proc_macro2::TokenTree`.  `_` is an identifier, as in `proc_macro2`.  `str` is a string literal
with the given value, `other` any other literal. -/
inductive Tok where
  | ident (raw : Bool) (sym : String)
  | punct (c : Char)
  | str (value : List Char)
  | other
  | group (paren : Bool) (content : List Tok)

/-- Result of a parser: the value and the remaining tokens. -/
abbrev PR (α : Type) := Out Unit (α × List Tok)

/-- The names `syn` (version 1, `ident.rs:accept_as_ident`) does not accept as identifiers. -/
def keywords : List String :=
  ["_", "abstract", "as", "async", "await", "become", "box", "break", "const", "continue", "crate", "do", "dyn",
   "else", "enum", "extern", "false", "final", "fn", "for", "if", "impl", "in", "let", "loop", "macro", "match",
   "mod", "move", "mut", "override", "priv", "pub", "ref", "return", "Self", "self", "static", "struct", "super",
   "trait", "true", "try", "type", "typeof", "unsafe", "unsized", "use", "virtual", "where", "while", "yield"]

/-- The names `input.parse::<Ident>()` refuses.  The theorems about parsing and printing hold for any such list;
outside of them it is that of `syn`. -/
class Reserved where
  words : List String

instance : Reserved := ⟨keywords⟩

section
variable [Reserved]

/-- `input.parse::<Ident>()`. -/
def parseIdent : List Tok → PR Ident
  | .ident raw sym :: r => if raw || !Reserved.words.contains sym then .ok (⟨raw, sym, 0⟩, r) else .err ()
  | _ => .err ()

/-- `input.call(Ident::parse_any)`. -/
def parseAnyIdent : List Tok → PR Ident
  | .ident raw sym :: r => .ok (⟨raw, sym, 0⟩, r)
  | _ => .err ()

/-- `peek(Ident::peek_any)`. -/
def peekIdent : List Tok → Bool
  | .ident _ _ :: _ => true
  | _ => false

/-- `peek` for a punctuation token. -/
def peekPunct (c : Char) : List Tok → Bool
  | .punct d :: _ => c == d
  | _ => false

/-- `input.parse()` for a punctuation token. -/
def parsePunct (c : Char) : List Tok → PR Unit
  | .punct d :: r => if c == d then .ok ((), r) else .err ()
  | _ => .err ()

/-- `src/nibble/mod.rs:144-150`: the tokens a term can start with. -/
def peekTerm : List Tok → Bool
  | .ident _ _ :: _ => true
  | .str _ :: _ => true
  | .punct c :: _ => c == '!'
  | .group p _ :: _ => p
  | _ => false

/-- `src/nibble/mod.rs:278-288`: the loop for the arguments of a lambda. -/
def parseLamArgs : Nat → List Tok → PR (List Ident)
  | 0, _ => .oof
  | n + 1, ts =>
    (parseIdent ts).bind fun (i, r) =>
      if peekPunct '/' r then .ok ([i], r)
      else if peekIdent r then (parseLamArgs n r).bind fun (l, r) => .ok (i :: l, r)
      else .err ()

/-- `src/nibble/mod.rs:398-408`: the loop for the arguments of a let. -/
def parseLetArgs : Nat → List Tok → PR (List Ident)
  | 0, _ => .oof
  | n + 1, ts =>
    if peekPunct '=' ts then .ok ([], ts)
    else if peekIdent ts then
      (parseIdent ts).bind fun (i, r) => (parseLetArgs n r).bind fun (l, r) => .ok (i :: l, r)
    else .err ()

mutual
/-- `src/nibble/mod.rs:35-41,61-68,99-117`: `Parse for Term`, with `Fix` and `ParenExpression` inlined.
`syn` reports tokens left over inside parentheses when the whole input has been parsed; here this is an
error at once. -/
def parseTerm : Nat → List Tok → PR Term
  | 0, _ => .oof
  | n + 1, ts =>
    match ts with
    | .ident false "_" :: r => .ok (.eps 0, r)
    | .str s :: r => .ok (.lit 0 s, r)
    | .punct '!' :: r => (parseTerm n r).bind fun (t, r) => .ok (.fix 0 t, r)
    | .group true l :: r => (parseExpr n l).bind fun (e, l') =>
      match l' with
      | [] => .ok (.parens e, r)
      | _ :: _ => .err ()
    | .ident raw sym :: r => .ok (.ident ⟨raw, sym, 0⟩, r)
    | _ => .err ()
/-- `src/nibble/mod.rs:143-155`: the loop of `Parse for Call`. -/
def parseTerms : Nat → List Tok → PR (List Term)
  | 0, _ => .oof
  | n + 1, ts =>
    if peekTerm ts then
      (parseTerm n ts).bind fun (t, r) => (parseTerms n r).bind fun (l, r) => .ok (t :: l, r)
    else .ok ([], ts)
/-- `src/nibble/mod.rs:140-159`: `Parse for Call`. -/
def parseCall : Nat → List Tok → PR Call
  | 0, _ => .oof
  | n + 1, ts => (parseTerm n ts).bind fun (t, r) => (parseTerms n r).bind fun (l, r) => .ok (.mk 0 (t :: l), r)
/-- `src/nibble/mod.rs:170-174`: `Parse for Cat`, i.e. `Punctuated::parse_separated_nonempty` of `syn`. -/
def parseCatItems : Nat → List Tok → PR (List (Call × Nat))
  | 0, _ => .oof
  | n + 1, ts =>
    (parseCall n ts).bind fun (x, r) =>
      match r with
      | .punct '.' :: r' => (parseCatItems n r').bind fun (l, r) => .ok ((x, 0) :: l, r)
      | r => .ok ([(x, 0)], r)
/-- `src/nibble/mod.rs:196-202,225-235`: `Parse for Labelled`, with `Label` inlined. -/
def parseLabelled : Nat → List Tok → PR Labelled
  | 0, _ => .oof
  | n + 1, ts =>
    (parseCatItems n ts).bind fun (l, r) =>
      match r with
      | .punct ':' :: r' => (parseAnyIdent r').bind fun (i, r) => .ok (.mk 0 (.mk 0 l) (some i), r)
      | r => .ok (.mk 0 (.mk 0 l) none, r)
/-- `src/nibble/mod.rs:246-250`: `Parse for Alt`. -/
def parseAltItems : Nat → List Tok → PR (List (Labelled × Nat))
  | 0, _ => .oof
  | n + 1, ts =>
    (parseLabelled n ts).bind fun (x, r) =>
      match r with
      | .punct '|' :: r' => (parseAltItems n r').bind fun (l, r) => .ok ((x, 0) :: l, r)
      | r => .ok ([(x, 0)], r)
/-- `src/nibble/mod.rs:275-298,324-332`: `Parse for Expression`, with `Lambda` inlined. -/
def parseExpr : Nat → List Tok → PR Expr
  | 0, _ => .oof
  | n + 1, ts =>
    match ts with
    | .punct '/' :: r =>
      (parseLamArgs n r).bind fun (args, r) => (parsePunct '/' r).bind fun (_, r) =>
        (parseAltItems n r).bind fun (l, r) => .ok (.lam 0 args (.mk 0 l), r)
    | ts => (parseAltItems n ts).bind fun (l, r) => .ok (.alt (.mk 0 l), r)
end

/-- `src/nibble/mod.rs:349-361,394-424,452-464`: `Parse for Statement`, with `GoalStatement` and
`LetStatement` inlined. -/
def parseStmt : Nat → List Tok → PR Stmt
  | 0, _ => .oof
  | n + 1, ts =>
    match ts with
    | .ident false "let" :: r =>
      (parseAnyIdent r).bind fun (x, r) => (parseLetArgs n r).bind fun (args, r) =>
        (parsePunct '=' r).bind fun (_, r) => (parseExpr n r).bind fun (e, r) =>
          (parsePunct ';' r).bind fun (_, r) => (parseStmt n r).bind fun (next, r) => .ok (.letS 0 x args e next, r)
    | .ident false "match" :: r =>
      (parseExpr n r).bind fun (e, r) => (parsePunct ';' r).bind fun (_, r) => .ok (.goal 0 e, r)
    | _ => .err ()

mutual
/-- The number of tokens. -/
def Tok.size : Tok → Nat
  | .ident _ _ => 1
  | .punct _ => 1
  | .str _ => 1
  | .other => 1
  | .group _ l => 1 + Tok.sizeL l
def Tok.sizeL : List Tok → Nat
  | [] => 0
  | t :: l => t.size + Tok.sizeL l
end

/-- `syn::parse2::<Statement>`: the whole input must be consumed.  The fuel always suffices
(`C14_parser_terminates`). -/
def parseProgram (ts : List Tok) : Out Unit Stmt :=
  (parseStmt (8 * Tok.sizeL ts + 9) ts).bind fun (s, r) =>
    match r with
    | [] => .ok s
    | _ :: _ => .err ()

end

/-! ## Printing -/

/-- `ToTokens for Ident`. -/
def Ident.toks (i : Ident) : List Tok := [.ident i.raw i.sym]

mutual
/-- `src/nibble/mod.rs:28-33,55-59,87-97`: `ToTokens for Term`, with `Fix` and `ParenExpression` inlined. -/
def Term.toks : Term → List Tok
  | .eps _ => [.ident false "_"]
  | .ident i => i.toks
  | .lit _ s => [.str s]
  | .fix _ t => .punct '!' :: t.toks
  | .parens e => [.group true e.toks]
/-- `src/nibble/mod.rs:134-138`: `ToTokens for Call`. -/
def Call.toks : Call → List Tok
  | .mk _ l => Term.toksL l
def Term.toksL : List Term → List Tok
  | [] => []
  | t :: l => t.toks ++ Term.toksL l
/-- `src/nibble/mod.rs:164-168`: `ToTokens for Cat`, i.e. `ToTokens for Punctuated`. -/
def Cat.toks : Cat → List Tok
  | .mk _ l => Call.toksL l
def Call.toksL : List (Call × Nat) → List Tok
  | [] => []
  | [(x, _)] => x.toks
  | (x, _) :: l => x.toks ++ .punct '.' :: Call.toksL l
/-- `src/nibble/mod.rs:189-194,216-223`: `ToTokens for Labelled`, with `Label` inlined. -/
def Labelled.toks : Labelled → List Tok
  | .mk _ cat none => cat.toks
  | .mk _ cat (some i) => cat.toks ++ .punct ':' :: i.toks
/-- `src/nibble/mod.rs:240-244`: `ToTokens for Alt`. -/
def Alt.toks : Alt → List Tok
  | .mk _ l => Labelled.toksL l
def Labelled.toksL : List (Labelled × Nat) → List Tok
  | [] => []
  | [(x, _)] => x.toks
  | (x, _) :: l => x.toks ++ .punct '|' :: Labelled.toksL l
/-- `src/nibble/mod.rs:266-273,315-322`: `ToTokens for Expression`, with `Lambda` inlined. -/
def Expr.toks : Expr → List Tok
  | .alt a => a.toks
  | .lam _ args body => .punct '/' :: (args.flatMap Ident.toks ++ .punct '/' :: body.toks)
end

/-- `src/nibble/mod.rs:341-347,382-392,443-450`: `ToTokens for Statement`, with `GoalStatement` and
`LetStatement` inlined. -/
def Stmt.toks : Stmt → List Tok
  | .goal _ e => .ident false "match" :: (e.toks ++ [.punct ';'])
  | .letS _ x args e next =>
    .ident false "let" :: (x.toks ++ (args.flatMap Ident.toks ++ (.punct '=' :: (e.toks ++ .punct ';' :: next.toks))))

end Chomp
