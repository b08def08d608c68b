import Verif.Props.Spans
import Verif.Driver.Text
import Verif.Auto.Model
import Verif.Lower.Rust
import Verif.Nibble.Syntax

/-!
# The programs

`/repo/src/main.rs` (`chomp`), `/repo/autonibble/src/main.rs` and the procedural macro of `/repo/chomp-macro/src/lib.rs`.
-/

namespace Chomp

/-- What the programs take from elsewhere. -/
structure World where
  /-- `heck` and `Ident::new` -/
  cas : Casing
  /-- `proc_macro2`: the tokens of a text, or the message of the error -/
  tokens : List Char → Except (List Char) (List Tok)
  /-- `syn`: the message for tokens that are not a program -/
  synMessage : List Tok → List Char
  /-- what the panic handler writes -/
  panicMessage : List Char
  /-- `{:#}` of the emitted tokens -/
  print : RProg → List Char
  /-- the characters that `{:?}` prints as they are -/
  plain : Char → Bool
  /-- what of a text reaches the standard output, and the message of the error if writing fails -/
  write : List Char → List Char × Option (List Char)

/-- How a process ended. -/
structure Ended where
  stdout : List Char
  stderr : List Char
  code : Nat
deriving DecidableEq

/-- `src/main.rs:57-60`: `eprintln!` and `exit(1)`. -/
def Ended.fails (msg : List Char) : Ended := ⟨[], msg ++ ['\n'], 1⟩

/-- A panic of the main thread: the handler writes to the standard error, and the process ends with 101. -/
def World.panics (w : World) : Ended := ⟨[], w.panicMessage, 101⟩

/-- The stages after conversion, in order; the body of `compile`. -/
def backEnd (cas : Casing) (fuel : Nat) (r : Conv NE) : Compile :=
  match r with
  | none => .panic
  | some (.error e, _) => .convert e
  | some (.ok e, _) =>
    match reduce fuel e with
    | .err e => .reduce e
    | .panic => .panic
    | .oof => .oof
    | .ok e =>
      match (inferTop fuel e ⟨[], []⟩).1 with
      | .err e => .typing e
      | .panic => .panic
      | .oof => .oof
      | .ok te =>
        match gen cas te {} with
        | .error _ => .panic
        | .ok (id, st) =>
          match st.emitIds fuel id with
          | none => .oof
          | some (.error _) => .panic
          | some (.ok out) => .ok te id st out

theorem compile_eq (cas : Casing) (fuel : Nat) (s : Stmt) : compile cas fuel s = backEnd cas fuel (convStmt s []) := rfl

/-- `src/main.rs:47-60` (and `autonibble/src/main.rs:48-60`): the end of `main`, given the outcome of the stages before. -/
def World.finish (w : World) : Compile → Option Ended
  | .convert e => some (.fails e.text)
  | .reduce e => some (.fails e.text)
  | .typing e => some (.fails e.text)
  | .panic => some w.panics
  | .oof => none
  | .ok _ id st out =>
    match w.write (w.print (st.program none id out)) with
    | (o, none) => some ⟨o, [], 0⟩
    | (o, some msg) => some ⟨o, msg ++ ['\n'], 1⟩

/-- `src/main.rs:25-61`: `main` of `chomp`.  `none`: still running when the fuel is used up.  The argument is what reading the
standard input as UTF-8 gives: a text, or the message of the error. -/
def World.chomp (w : World) (fuel : Nat) : Except (List Char) (List Char) → Option Ended
  | .error msg => some (.fails msg)
  | .ok text =>
    match w.tokens text with
    | .error msg => some (.fails msg)
    | .ok ts =>
      match parseProgram ts with
      | .err _ => some (.fails (w.synMessage ts))
      | .panic => some w.panics
      | .oof => none
      | .ok s => w.finish (backEnd w.cas fuel (convStmt s []))

/-- `autonibble/src/main.rs:23-61`: `main` of `autonibble`, whose parser was generated as the table `st`. -/
def World.autonibble (w : World) (st : BState) (fuel : Nat) : Except (List Char) (List Char) → Option Ended
  | .error msg => some (.fails msg)
  | .ok text =>
    match parseStr (st.take fuel 0) text with
    | .err e => some (.fails (e.text w.plain))
    | .panic => some w.panics
    | .oof => none
    | .ok t => w.finish (backEnd w.cas fuel (autoAst t []))

/-- Where the compiler of the user shows an error. -/
inductive Site where
  | span (s : Nat)
  | callSite
  /-- where `syn` says -/
  | syntaxError
deriving DecidableEq

/-- What a use of the macro becomes. -/
inductive Expansion where
  | items (p : RProg)
  /-- `syn::Error::into_compile_error` -/
  | compileError (msg : List Char) (site : Site)
  /-- the compiler of the user reports that the macro panicked -/
  | panics

/-- The site of a conversion error. -/
def ConvErr.site (e : ConvErr) : Site :=
  match e.span with
  | some s => .span s
  | none => .callSite

/-- `chomp-macro/src/lib.rs:17-43`: the macro `nibble!` after parsing its input as the statement `s` (with any spans).  The
conversions into `syn::Error` are `src/nibble/convert.rs:67-79`, `src/chomp/ast/error.rs:21-31` and
`src/chomp/typed/error.rs:148-154`. -/
def World.expand (w : World) (fuel : Nat) (s : Stmt) : Option Expansion :=
  match backEnd w.cas fuel (convStmt s []) with
  | .convert e => some (.compileError e.text e.site)
  | .reduce e => some (.compileError e.text (.span e.span))
  | .typing e => some (.compileError e.text (.span e.span))
  | .panic => some .panics
  | .oof => none
  | .ok _ id st out => some (.items (st.program none id out))

/-- `chomp-macro/src/lib.rs:15-43`: the macro `nibble!` on the tokens of its use. -/
def World.nibble (w : World) (fuel : Nat) (ts : List Tok) : Option Expansion :=
  match parseProgram ts with
  | .err _ => some (.compileError (w.synMessage ts) .syntaxError)
  | .panic => some .panics
  | .oof => none
  | .ok s => w.expand fuel s

end Chomp
