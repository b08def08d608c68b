import Verif.Nibble.Syntax

/-!
# Parsing nibble programs: places and errors

`/repo/src/nibble/mod.rs`: the `Parse` implementations once more, on tokens that have a place in the source
(`proc_macro2::Span`), with the places of the trees and with the errors.  `Verif/Nibble/Syntax.lean` is the
same without places and with all errors identified; `Verif/Props/SynErrors.lean` relates the two.

What `syn` (version 1) does, as modelled here: an error is at the next token, at the opening delimiter if that is a
group; at the end of a group it is at the closing delimiter, at the end of the input at
`Span::call_site()`.  Tokens left over at the end of a group are remembered (`ParseBuffer`'s `Drop`, only
the first of them) and are an error if everything else succeeds (`parse2`).  The place of a construct
is a function of its tokens (`Spanned`), a parameter `sp`.  The texts of errors are left to `syn`; the
model has what they say was expected.
-/

namespace Chomp

/-- `proc_macro2::TokenTree` with places; a group has those of its delimiters. -/
inductive STok where
  | ident (raw : Bool) (sym : String) (span : Nat)
  | punct (c : Char) (span : Nat)
  | str (value : List Char) (span : Nat)
  | other (span : Nat)
  | group (paren : Bool) (opn : Nat) (content : List STok) (cls : Nat)

/-- `Cursor::span`, for a group that of the opening delimiter (`open_span_of_group`). -/
def STok.span : STok → Nat
  | .ident _ _ s => s
  | .punct _ s => s
  | .str _ s => s
  | .other s => s
  | .group _ s _ _ => s

mutual
/-- The token without places. -/
def STok.erase : STok → Tok
  | .ident r s _ => .ident r s
  | .punct c _ => .punct c
  | .str v _ => .str v
  | .other _ => .other
  | .group p _ l _ => .group p (STok.eraseL l)
def STok.eraseL : List STok → List Tok
  | [] => []
  | t :: l => t.erase :: STok.eraseL l
end

/-- What an error of `syn` says was expected. -/
inductive Expect where
  /-- a keyword or `_` -/
  | word (s : String)
  /-- a punctuation character -/
  | punct (c : Char)
  /-- `string literal` -/
  | str
  /-- `parentheses` -/
  | paren
  /-- `identifier` -/
  | ident
deriving DecidableEq, Repr

/-- `syn::Error` of a parser.  `loc` is its place, `none` being the end of the input.  `expected` is empty for `unexpected token`.
`left` is the state of `ParseBuffer::unexpected` when the error is made. -/
structure SynErr where
  loc : Option Nat
  expected : List Expect
  left : Option Nat
deriving DecidableEq, Repr

/-- Result of a parser: the value, the remaining tokens, and the first token left over in a group so far. -/
abbrev SR (α : Type) := Out SynErr (α × List STok × Option Nat)

/-- `ParseStream`: where the end is (`scope`) is a parameter of every parser.  The place of an error at the tokens `ts`. -/
def errLoc (scope : Option Nat) : List STok → Option Nat
  | [] => scope
  | t :: _ => some t.span

/-- `Lookahead1::error`, `ParseBuffer::error`. -/
def synErr {α : Type} (scope : Option Nat) (ts : List STok) (u : Option Nat) (expected : List Expect) : SR α :=
  .err ⟨errLoc scope ts, expected, u⟩

/-- `Spanned::span` of what has been parsed when of the tokens `ts` the tokens `r` remain. -/
def spanned (sp : List STok → Nat) (ts r : List STok) : Nat := sp (ts.take (ts.length - r.length))

section
variable [Reserved]

/-- `input.parse::<Ident>()`. -/
def identS (scope : Option Nat) (ts : List STok) (u : Option Nat) : SR Ident :=
  match ts with
  | .ident raw sym s :: r =>
    if raw || !Reserved.words.contains sym then .ok (⟨raw, sym, s⟩, r, u) else synErr scope ts u [.ident]
  | ts => synErr scope ts u [.ident]

/-- `input.call(Ident::parse_any)`. -/
def anyIdentS (scope : Option Nat) (ts : List STok) (u : Option Nat) : SR Ident :=
  match ts with
  | .ident raw sym s :: r => .ok (⟨raw, sym, s⟩, r, u)
  | ts => synErr scope ts u [.ident]

/-- `peek(Ident::peek_any)`. -/
def peekIdentS : List STok → Bool
  | .ident _ _ _ :: _ => true
  | _ => false

/-- `peek` for a punctuation token. -/
def peekPunctS (c : Char) : List STok → Bool
  | .punct d _ :: _ => c == d
  | _ => false

/-- `input.parse()` for a punctuation token. -/
def punctS (c : Char) (scope : Option Nat) (ts : List STok) (u : Option Nat) : SR Nat :=
  match ts with
  | .punct d s :: r => if c == d then .ok (s, r, u) else synErr scope ts u [.punct c]
  | ts => synErr scope ts u [.punct c]

/-- `src/nibble/mod.rs:144-150`: the tokens a term can start with. -/
def peekTermS : List STok → Bool
  | .ident _ _ _ :: _ => true
  | .str _ _ :: _ => true
  | .punct c _ :: _ => c == '!'
  | .group p _ _ _ :: _ => p
  | _ => false

/-- `src/nibble/mod.rs:278-288`: the loop for the arguments of a lambda. -/
def lamArgsS : Nat → Option Nat → List STok → Option Nat → SR (List Ident)
  | 0, _, _, _ => .oof
  | n + 1, scope, ts, u =>
    (identS scope ts u).bind fun (i, r, u) =>
      if peekPunctS '/' r then .ok ([i], r, u)
      else if peekIdentS r then (lamArgsS n scope r u).bind fun (l, r, u) => .ok (i :: l, r, u)
      else synErr scope r u [.punct '/', .ident]

/-- `src/nibble/mod.rs:398-408`: the loop for the arguments of a let. -/
def letArgsS : Nat → Option Nat → List STok → Option Nat → SR (List Ident)
  | 0, _, _, _ => .oof
  | n + 1, scope, ts, u =>
    if peekPunctS '=' ts then .ok ([], ts, u)
    else if peekIdentS ts then
      (identS scope ts u).bind fun (i, r, u) => (letArgsS n scope r u).bind fun (l, r, u) => .ok (i :: l, r, u)
    else synErr scope ts u [.punct '=', .ident]

/-- `ParseBuffer`'s `Drop`, when the tokens `l` are left over. -/
def dropBuffer (l : List STok) (u : Option Nat) : Option Nat :=
  match l, u with
  | t :: _, none => some t.span
  | _, u => u

mutual
/-- `src/nibble/mod.rs:35-41,61-68,99-117`: `Parse for Term`, with `Fix` and `ParenExpression` inlined. -/
def termS (sp : List STok → Nat) : Nat → Option Nat → List STok → Option Nat → SR Term
  | 0, _, _, _ => .oof
  | n + 1, scope, ts, u =>
    match ts with
    | .ident false "_" s :: r => .ok (.eps s, r, u)
    | .str v s :: r => .ok (.lit s v, r, u)
    | .punct '!' s :: r =>
      (termS sp n scope r u).bind fun (t, r', u) => .ok (.fix (spanned sp (.punct '!' s :: r) r') t, r', u)
    | .group true _ l c :: r =>
      (exprS sp n (some c) l u).bind fun (e, l', u) => .ok (.parens e, r, dropBuffer l' u)
    | .ident raw sym s :: r => .ok (.ident ⟨raw, sym, s⟩, r, u)
    | ts => synErr scope ts u [.word "_", .str, .punct '!', .paren, .ident]
/-- `src/nibble/mod.rs:143-155`: the loop of `Parse for Call`. -/
def termsS (sp : List STok → Nat) : Nat → Option Nat → List STok → Option Nat → SR (List Term)
  | 0, _, _, _ => .oof
  | n + 1, scope, ts, u =>
    if peekTermS ts then
      (termS sp n scope ts u).bind fun (t, r, u) => (termsS sp n scope r u).bind fun (l, r, u) => .ok (t :: l, r, u)
    else .ok ([], ts, u)
/-- `src/nibble/mod.rs:140-159`: `Parse for Call`. -/
def callS (sp : List STok → Nat) : Nat → Option Nat → List STok → Option Nat → SR Call
  | 0, _, _, _ => .oof
  | n + 1, scope, ts, u =>
    (termS sp n scope ts u).bind fun (t, r, u) => (termsS sp n scope r u).bind fun (l, r, u) =>
      .ok (.mk (spanned sp ts r) (t :: l), r, u)
/-- `src/nibble/mod.rs:170-174`: `Parse for Cat`, i.e. `Punctuated::parse_separated_nonempty` of `syn`.  After the last
element there is no punctuation; `src/nibble/convert.rs:199` takes `Span::call_site()` for it. -/
def catItemsS (sp : List STok → Nat) : Nat → Option Nat → List STok → Option Nat → SR (List (Call × Nat))
  | 0, _, _, _ => .oof
  | n + 1, scope, ts, u =>
    (callS sp n scope ts u).bind fun (x, r, u) =>
      match r with
      | .punct '.' s :: r' => (catItemsS sp n scope r' u).bind fun (l, r, u) => .ok ((x, s) :: l, r, u)
      | r => .ok ([(x, 0)], r, u)
/-- `src/nibble/mod.rs:196-202,225-235`: `Parse for Labelled`, with `Label` inlined. -/
def labelledS (sp : List STok → Nat) : Nat → Option Nat → List STok → Option Nat → SR Labelled
  | 0, _, _, _ => .oof
  | n + 1, scope, ts, u =>
    (catItemsS sp n scope ts u).bind fun (l, r, u) =>
      match r with
      | .punct ':' s :: r' =>
        (anyIdentS scope r' u).bind fun (i, r'', u) =>
          .ok (.mk (spanned sp ts r'') (.mk (spanned sp ts (.punct ':' s :: r')) l) (some i), r'', u)
      | r => .ok (.mk (spanned sp ts r) (.mk (spanned sp ts r) l) none, r, u)
/-- `src/nibble/mod.rs:246-250`: `Parse for Alt`. -/
def altItemsS (sp : List STok → Nat) : Nat → Option Nat → List STok → Option Nat → SR (List (Labelled × Nat))
  | 0, _, _, _ => .oof
  | n + 1, scope, ts, u =>
    (labelledS sp n scope ts u).bind fun (x, r, u) =>
      match r with
      | .punct '|' s :: r' => (altItemsS sp n scope r' u).bind fun (l, r, u) => .ok ((x, s) :: l, r, u)
      | r => .ok ([(x, 0)], r, u)
/-- `src/nibble/mod.rs:275-298,324-332`: `Parse for Expression`, with `Lambda` inlined. -/
def exprS (sp : List STok → Nat) : Nat → Option Nat → List STok → Option Nat → SR Expr
  | 0, _, _, _ => .oof
  | n + 1, scope, ts, u =>
    match ts with
    | .punct '/' s :: r =>
      (lamArgsS n scope r u).bind fun (args, r1, u) => (punctS '/' scope r1 u).bind fun (_, r2, u) =>
        (altItemsS sp n scope r2 u).bind fun (l, r3, u) =>
          .ok (.lam (spanned sp (.punct '/' s :: r) r3) args (.mk (spanned sp r2 r3) l), r3, u)
    | ts => (altItemsS sp n scope ts u).bind fun (l, r, u) => .ok (.alt (.mk (spanned sp ts r) l), r, u)
end

/-- `src/nibble/mod.rs:349-361,394-424,452-464`: `Parse for Statement`, with `GoalStatement` and
`LetStatement` inlined. -/
def stmtS (sp : List STok → Nat) : Nat → Option Nat → List STok → Option Nat → SR Stmt
  | 0, _, _, _ => .oof
  | n + 1, scope, ts, u =>
    match ts with
    | .ident false "let" s :: r =>
      (anyIdentS scope r u).bind fun (x, r1, u) => (letArgsS n scope r1 u).bind fun (args, r2, u) =>
        (punctS '=' scope r2 u).bind fun (_, r3, u) => (exprS sp n scope r3 u).bind fun (e, r4, u) =>
          (punctS ';' scope r4 u).bind fun (_, r5, u) => (stmtS sp n scope r5 u).bind fun (next, r6, u) =>
            .ok (.letS (spanned sp (.ident false "let" s :: r) r6) x args e next, r6, u)
    | .ident false "match" s :: r =>
      (exprS sp n scope r u).bind fun (e, r1, u) => (punctS ';' scope r1 u).bind fun (_, r2, u) =>
        .ok (.goal (spanned sp (.ident false "match" s :: r) r2) e, r2, u)
    | ts => synErr scope ts u [.word "let", .word "match"]

mutual
/-- The number of tokens. -/
def STok.size : STok → Nat
  | .group _ _ l _ => 1 + STok.sizeL l
  | _ => 1
def STok.sizeL : List STok → Nat
  | [] => 0
  | t :: l => t.size + STok.sizeL l
end

/-- `syn::parse2::<Statement>`: when the parser has succeeded, tokens left over in a group are reported first, then
those left over at the end.  The fuel always suffices (`C84_parser_terminates`). -/
def parseSpanned (sp : List STok → Nat) (ts : List STok) : Out SynErr Stmt :=
  (stmtS sp (8 * STok.sizeL ts + 9) none ts none).bind fun (s, r, u) =>
    match u, r with
    | some p, _ => .err ⟨some p, [], some p⟩
    | none, t :: _ => .err ⟨some t.span, [], none⟩
    | none, [] => .ok s

end

end Chomp
