import Verif.Chewed.Model
import Verif.Typed.Model
import Verif.Gram.Spec
import Verif.Nibble.Model

/-!
# What generated code does at run time: `/repo/src/lower/mod.rs`

The pieces of the generated `Parse` implementations, for an arbitrary type of references to other
generated types.  A value of a generated type is represented by its syntax tree: an `Epsilon` by
`eps`, a literal struct by `lit` with its text, a struct of parts by `cat`, an enum by `alt` with the
index of the variant, a `Box` by `box`; type aliases are transparent.
-/

namespace Chomp

/-- `src/lower/mod.rs:250,269`: `#(let #number_parts = input.take()?;)*`. -/
def seqTake {α : Type} (f : α → IW → Res Tree) : List α → IW → Res (List Tree)
  | [], w => .ok [] w
  | x :: l, w => (f x w).bind fun t w => (seqTake f l w).bind fun ts w => .ok (t :: ts) w

/-- `src/lower/mod.rs:296-310,337-339,348-349`: the variant chosen by `match input.peek()`: the first whose
first set contains the character, otherwise the first nullable one. -/
def altChoose (p : Option Char) (tys : List Ty) : Option Nat :=
  match p.bind fun c => findIdx (fun ty : Ty => decide (c ∈ ty.first)) tys with
  | some k => some k
  | none => findIdx (fun ty : Ty => ty.nullable) tys

/-- `src/lower/mod.rs:312-316,350-351`: the error when no variant fits. -/
def altFail (p : Option Char) (pos : LineCol) (tys : List Ty) : TakeError :=
  match p with
  | some c => .badBranch pos c (tys.flatMap fun ty => ty.first.chars)
  | none => .endOfStream pos

/-- `src/lower/mod.rs:333-356`: `Parse::take` of a generated enum. -/
def altTake {α : Type} (f : α → IW → Res Tree) (tys : List Ty) (xs : List α) (w : IW) : Res Tree :=
  match w.peek with
  | (p, w) =>
    match altChoose p tys with
    | some k =>
      match xs[k]? with
      | some x => (f x w).map (.alt k)
      | none => .panic
    | none => .err (altFail p w.pos tys) w

/-- What the `Parse` implementation of a generated type consists of; `α` is the type of references to
generated types.  `bad` is a reference to something that does not exist. -/
inductive NodeF (α : Type) where
  | eps
  | lit (s : List Char)
  | cat (l : List α)
  | alt (tys : List Ty) (l : List α)
  | alias (a : α)
  | box (a : α)
  | bad
deriving DecidableEq

/-- `Parse::take` of the generated type `a`; `step` looks up its definition.
`chewed/src/parse.rs:204-217,219-227`: `Epsilon` and `Box`;
`src/lower/mod.rs:193-197`: literals; `src/lower/mod.rs:248-253,267-272`: structs;
`src/lower/mod.rs:333-356`: enums; `src/lower/mod.rs:401`: type aliases.
Fuel bounds the depth of the recursion. -/
def run {α : Type} (step : α → NodeF α) : Nat → α → IW → Res Tree
  | 0, _, _ => .oof
  | n + 1, a, w =>
    match step a with
    | .eps => .ok .eps w
    | .lit s => (consumeStr s w).map fun _ => .lit s
    | .cat l => (seqTake (run step n) l w).map .cat
    | .alt tys l => altTake (run step n) tys l w
    | .alias b => run step n b w
    | .box b => (run step n b w).map .box
    | .bad => .panic

/-- The number of calls of `take` and of characters compared by `consume_str` made by `run` (model
only): the cost of the parts of a struct up to the first failure. -/
def seqCost {α : Type} (f : α → IW → Res Tree) (g : α → IW → Nat) : List α → IW → Nat
  | [], _ => 0
  | x :: l, w =>
    g x w +
      match f x w with
      | .ok _ w => seqCost f g l w
      | _ => 0

/-- See `seqCost`. -/
def runCost {α : Type} (step : α → NodeF α) : Nat → α → IW → Nat
  | 0, _, _ => 0
  | n + 1, a, w =>
    match step a with
    | .eps => 1
    | .lit s => 1 + s.length
    | .cat l => 1 + seqCost (run step n) (runCost step n) l w
    | .alt tys l =>
      1 +
        match w.peek with
        | (p, w) =>
          match altChoose p tys with
          | some k =>
            match l[k]? with
            | some x => runCost step n x w
            | none => 0
          | none => 0
    | .alias b => 1 + runCost step n b w
    | .box b => 1 + runCost step n b w
    | .bad => 1

mutual
/-- The values of the generated type `a`: `src/lower/mod.rs:185` (literals are unit structs),
`src/lower/mod.rs:237-239,258` (structs), `src/lower/mod.rs:320-322` (enums), `src/lower/mod.rs:401` (type aliases),
`src/lower/mod.rs:416` (`Box`), `chewed/src/parse.rs:204` (`Epsilon`). -/
inductive Value {α : Type} (step : α → NodeF α) : α → Tree → Prop
  | eps (a : α) : step a = .eps → Value step a .eps
  | lit (a : α) (s : List Char) : step a = .lit s → Value step a (.lit s)
  | cat (a : α) (l : List α) (ts : List Tree) : step a = .cat l → ValueL step l ts → Value step a (.cat ts)
  | alt (a : α) (tys : List Ty) (l : List α) (k : Nat) (b : α) (t : Tree) : step a = .alt tys l → l[k]? = some b →
      Value step b t → Value step a (.alt k t)
  | alias (a b : α) (t : Tree) : step a = .alias b → Value step b t → Value step a t
  | box (a b : α) (t : Tree) : step a = .box b → Value step b t → Value step a (.box t)
/-- The values of the fields of a struct. -/
inductive ValueL {α : Type} (step : α → NodeF α) : List α → List Tree → Prop
  | nil : ValueL step [] []
  | cons (a : α) (l : List α) (t : Tree) (ts : List Tree) : Value step a t → ValueL step l ts →
      ValueL step (a :: l) (t :: ts)
end

mutual
/-- `Display` of a generated value: `src/lower/mod.rs:187-191` (literals), `src/lower/mod.rs:241-246,260-265`
(structs), `src/lower/mod.rs:324-330` (enums), `chewed/src/parse.rs:207-211` (`Epsilon`, written as the
empty string); `Box` displays its content (standard library). -/
def Tree.display : Tree → List Char
  | .eps => []
  | .lit s => s
  | .cat l => Tree.displayL l
  | .alt _ t => t.display
  | .box t => t.display
/-- The fields of a struct, in order. -/
def Tree.displayL : List Tree → List Char
  | [] => []
  | t :: l => t.display ++ Tree.displayL l
end

/-- `From<_> for char` of a generated value: `src/lower/mod.rs:202-208` (literals of one character),
`src/lower/mod.rs:360-368` (enums, which convert the content of the variant); `none` where no conversion is
generated. -/
def Tree.toChar : Tree → Option Char
  | .lit [c] => some c
  | .alt _ t => t.toChar
  | _ => none

end Chomp
