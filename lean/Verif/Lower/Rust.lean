import Verif.Lower.Model

/-!
# The emitted program: `/repo/src/lower/mod.rs`

`Verif/Lower/Model.lean` describes a generated type by a node of a table.  Here the items that the
backend actually writes out are modelled as data (`RItem`), with the parts of each `impl` that depend on
the grammar spelled out: names of types, fields, variants and local variables, the order of statements
and of match arms.  `RProg.take`, `RVal.fmt` and `RVal.toChar` say what the items do when they are
compiled and run, resolving every name by looking it up in the program, and `RProg.Compiles` says what
the Rust compiler checks about them.

Not represented here: spans, and, because they are the same for every grammar, doc comments, derives, visibility (they are in the tokens
of `Verif/Lower/Tokens.lean`), `use ::chewed::*` (of what it imports only
`Epsilon` is named by a field; defined names all end in a digit or are `Ast`, so they shadow nothing that
is imported, see `Verif/Lower/RustLemmas.lean`), and the bodies that do not depend on the grammar.
-/

namespace Chomp

/-- Types in the emitted program: a name, or a `Box` (`src/lower/mod.rs:416`). -/
inductive RTy where
  | path (name : String)
  | boxed (t : RTy)
deriving DecidableEq, Repr

/-- `src/lower/mod.rs:333-356`: what the last arms of the `match input.peek()` of an enum do: `_` takes a
variant, or `Some(c)` and `None` return errors. -/
inductive ROther where
  | take (variant : String)
  | fail (expected : List Char)
deriving DecidableEq, Repr

/-- The items of an emitted program, each with its `impl`s of `Display`, `Parse` and, if there is one,
`From<_> for char`. -/
inductive RItem where
  /-- `src/lower/mod.rs:182-209`: `pub struct name;`, displayed as `text`, parsed by `consume_str(consume)`,
  converted to the character -/
  | unit (name : String) (text consume : List Char) (toChar : Option Char)
  /-- `src/lower/mod.rs:233-254`: `pub struct name { fields }`, displayed by displaying the fields `shown`,
  parsed by `let x = input.take()?;` for `lets` followed by `Ok(Self { build })` -/
  | named (name : String) (fields : List (String × RTy)) (shown lets : List String) (build : List (String × String))
  /-- `src/lower/mod.rs:256-273`: the same for `pub struct name(fields);` -/
  | tuple (name : String) (fields : List RTy) (shown : List Nat) (lets build : List String)
  /-- `src/lower/mod.rs:318-369`: `pub enum name { variants }`, with the variants matched in `Display`, the arms
  `Some('a')|Some('b') => Ok(Self::V(input.take()?))` of `take` and its last arms, and the variants matched in
  `From<name> for char` -/
  | enum (name : String) (variants : List (String × RTy)) (shown : List String) (arms : List (List Char × String))
      (other : ROther) (chars : Option (List String))
  /-- `src/lower/mod.rs:401,452-458`: `pub type name = ty;` -/
  | alias (name : String) (ty : RTy)
deriving DecidableEq, Repr

/-- The name an item defines. -/
def RItem.name : RItem → String
  | .unit n _ _ _ => n
  | .named n _ _ _ _ => n
  | .tuple n _ _ _ _ => n
  | .enum n _ _ _ _ _ => n
  | .alias n _ => n

/-- An emitted program. -/
abbrev RProg := List RItem

/-- The item a name refers to. -/
def RProg.find (p : RProg) (x : String) : Option RItem := List.find? (fun i => i.name == x) p

/-! ## What the backend emits -/

/-- The type written for the entry `id`: `ty_names`, `src/lower/mod.rs:92-97`; the names of entries are those
of `src/lower/mod.rs:165,213,278,373,391,416`. -/
def BState.rty (s : BState) (id : Nat) : RTy :=
  match s.data[id]? with
  | none => .path ""
  | some e =>
    match e.node with
    | .box f =>
      match s.data[f]? with
      | none => .boxed (.path "")
      | some e' => .boxed (.path e'.name)
    | _ => .path e.name

/-- `src/lower/mod.rs:77-90`: the local variables `part0`, `part1`, ... of `indexes`, from the number `i` on. -/
def numberParts (i : Nat) : Nat → List String
  | 0 => []
  | n + 1 => ("part" ++ digits i) :: numberParts (i + 1) n

/-- `src/lower/mod.rs:301-310`: the arms of the `match input.peek()` of an enum: one for every variant whose
first set is not empty. -/
def enumArms (tys : List Ty) (parts : List String) : List (List Char × String) :=
  (tys.zip parts).filterMap fun x => if x.1.first.chars.isEmpty then none else some (x.1.first.chars, x.2)

/-- `src/lower/mod.rs:296-300,312-316,333-356`: the remaining arms. -/
def enumOther (tys : List Ty) (parts : List String) : ROther :=
  match (tys.zip parts).find? fun x => x.1.nullable with
  | some x => .take x.2
  | none => .fail (tys.flatMap fun ty => ty.first.chars)

/-- The tokens of an entry (`Ty::rest`): `src/lower/mod.rs:166,182-209,233-274,318-369,401,420`.  The code writes
them when the entry is made; the names of entries do not change afterwards, so that the model can look
them up in the final table.  A struct has named fields if any of its parts has a name. -/
def BState.item (s : BState) (e : Entry) : Option RItem :=
  match e.node with
  | .eps => none
  | .box _ => none
  | .bad => none
  | .lit str => some (.unit e.name str str (match str with | [c] => some c | _ => none))
  | .cat ids =>
    let lets := numberParts 0 ids.length
    if e.fields.isEmpty then some (.tuple e.name (ids.map s.rty) (List.range ids.length) lets lets)
    else some (.named e.name (e.fields.zip (ids.map s.rty)) e.fields lets (e.fields.zip lets))
  | .alt tys ids =>
    some (.enum e.name (e.fields.zip (ids.map s.rty)) e.fields (enumArms tys e.fields) (enumOther tys e.fields)
      (if e.toChar then some e.fields else none))
  | .alias j => some (.alias e.name (s.rty j))

/-- `src/lower/mod.rs:427-462`: the items emitted for the root `id`, given the order in which the entries are
visited, and the final alias. -/
def BState.program (s : BState) (name : Option Name) (id : Nat) (out : List Nat) : RProg :=
  (out.filterMap fun i => (s.data[i]?).bind s.item) ++ [.alias (s.rootName name) (s.rty id)]

/-! ## What it does -/

/-- Values of the emitted types (and of `chewed::Epsilon` and `Box`): a unit struct; a struct with its
fields in the order of their declaration; an enum with the name of the variant. -/
inductive RVal where
  | epsilon
  | unit (ty : String)
  | struct (ty : String) (fields : List (String × RVal))
  | tuple (ty : String) (fields : List RVal)
  | variant (ty : String) (variant : String) (v : RVal)
  | boxed (v : RVal)

/-- `let x = input.take()?;` for each variable in turn; `f` says what is taken for a variable. -/
def takeLets (f : String → IW → Res RVal) : List String → IW → Res (List (String × RVal))
  | [], w => .ok [] w
  | x :: l, w => (f x w).bind fun v w => (takeLets f l w).map ((x, v) :: ·)

/-- The value of a variable: the latest `let` counts. -/
def getVar (env : List (String × RVal)) (x : String) : Option RVal := env.reverse.lookup x

/-- The type of a variable that is used as a field in `Self { build }`. -/
def varField (fields : List (String × RTy)) (build : List (String × String)) (x : String) : Option RTy :=
  (build.find? fun b => b.2 == x).bind fun b => fields.lookup b.1

/-- The type of a variable that is used as a field in `Self(build)`. -/
def varIndex (fields : List RTy) (build : List String) (x : String) : Option RTy :=
  (findIdx (fun b => b == x) build).bind fun k => fields[k]?

/-- `Self { build }`: the fields in the order of their declaration. -/
def makeNamed (env : List (String × RVal)) (build : List (String × String)) : List (String × RTy) →
    Option (List (String × RVal))
  | [] => some []
  | (f, _) :: l =>
    ((build.lookup f).bind (getVar env)).bind fun v => (makeNamed env build l).map ((f, v) :: ·)

/-- `Self(build)`. -/
def makeTuple (env : List (String × RVal)) : List String → Option (List RVal)
  | [] => some []
  | x :: l => (getVar env x).bind fun v => (makeTuple env l).map (v :: ·)

/-- The arm of `match input.peek()` that is taken, other than the last ones. -/
def pickArm (c : Option Char) (arms : List (List Char × String)) : Option String :=
  c.bind fun c => (arms.find? fun a => a.1.contains c).map (·.2)

/-- A failure to resolve a name is a `panic` in the model: such a program does not compile. -/
def resolved {α β : Type} (x : Option α) (f : α → Res β) : Res β :=
  match x with
  | some a => f a
  | none => .panic

/-- `<ty as Parse>::take`.  `input.take()` takes a value of the type that is expected where it is used.
`chewed/src/parse.rs:204-227` for `Epsilon` and `Box`.  Fuel bounds the depth of the recursion. -/
def RProg.take (p : RProg) : Nat → RTy → IW → Res RVal
  | 0, _, _ => .oof
  | n + 1, .boxed t, w => (RProg.take p n t w).map .boxed
  | n + 1, .path x, w =>
    match p.find x with
    | none => if x = "Epsilon" then .ok .epsilon w else .panic
    | some (.unit nm _ s _) => (consumeStr s w).map fun _ => .unit nm
    | some (.named nm fields _ lets build) =>
      (takeLets (fun v w => resolved (varField fields build v) fun t => RProg.take p n t w) lets w).bind fun env w =>
        resolved (makeNamed env build fields) fun vs => .ok (.struct nm vs) w
    | some (.tuple nm fields _ lets build) =>
      (takeLets (fun v w => resolved (varIndex fields build v) fun t => RProg.take p n t w) lets w).bind fun env w =>
        resolved (makeTuple env build) fun vs => .ok (.tuple nm vs) w
    | some (.enum nm variants _ arms other _) =>
      match w.peek with
      | (c, w) =>
        match pickArm c arms, other with
        | some v, _ => resolved (variants.lookup v) fun t => (RProg.take p n t w).map (.variant nm v)
        | none, .take v => resolved (variants.lookup v) fun t => (RProg.take p n t w).map (.variant nm v)
        | none, .fail expected =>
          match c with
          | some c => .err (.badBranch w.pos c expected) w
          | none => .err (.endOfStream w.pos) w
    | some (.alias _ t) => RProg.take p n t w

/-- The texts of the fields `shown`, in this order. -/
def fmtShown {α : Type} (get : α → Option (Option (List Char))) : List α → Option (List Char)
  | [] => some []
  | x :: l => (get x).bind fun t => t.bind fun t => (fmtShown get l).map (t ++ ·)

mutual
/-- `Display::fmt` of a value; `none` if a name cannot be resolved. -/
def RVal.fmt (p : RProg) : RVal → Option (List Char)
  | .epsilon => some []
  | .unit ty =>
    match p.find ty with
    | some (.unit _ text _ _) => some text
    | _ => none
  | .struct ty fs =>
    match p.find ty with
    | some (.named _ _ shown _ _) => fmtShown (fun x => (RVal.fmtN p fs).lookup x) shown
    | _ => none
  | .tuple ty vs =>
    match p.find ty with
    | some (.tuple _ _ shown _ _) => fmtShown (fun i => (RVal.fmtT p vs)[i]?) shown
    | _ => none
  | .variant ty x v =>
    match p.find ty with
    | some (.enum _ _ shown _ _ _) => if x ∈ shown then v.fmt p else none
    | _ => none
  | .boxed v => v.fmt p
/-- The texts of named fields. -/
def RVal.fmtN (p : RProg) : List (String × RVal) → List (String × Option (List Char))
  | [] => []
  | (x, v) :: l => (x, v.fmt p) :: RVal.fmtN p l
/-- The texts of numbered fields. -/
def RVal.fmtT (p : RProg) : List RVal → List (Option (List Char))
  | [] => []
  | v :: l => v.fmt p :: RVal.fmtT p l
end

/-- `char::from` of a value; `none` where there is no such conversion. -/
def RVal.toChar (p : RProg) : RVal → Option Char
  | .unit ty =>
    match p.find ty with
    | some (.unit _ _ _ c) => c
    | _ => none
  | .variant ty x v =>
    match p.find ty with
    | some (.enum _ _ _ _ _ (some xs)) => if x ∈ xs then v.toChar p else none
    | _ => none
  | _ => none

mutual
/-- The values of a type. -/
inductive RVal.HasType (p : RProg) : RTy → RVal → Prop
  | epsilon : p.find "Epsilon" = none → RVal.HasType p (.path "Epsilon") .epsilon
  | unit (x : String) (s s' : List Char) (c : Option Char) : p.find x = some (.unit x s s' c) →
      RVal.HasType p (.path x) (.unit x)
  | struct (x : String) (fields : List (String × RTy)) (shown lets : List String) (build : List (String × String))
      (vs : List (String × RVal)) : p.find x = some (.named x fields shown lets build) → RVal.HasTypeN p fields vs →
      RVal.HasType p (.path x) (.struct x vs)
  | tuple (x : String) (fields : List RTy) (shown : List Nat) (lets build : List String) (vs : List RVal) :
      p.find x = some (.tuple x fields shown lets build) → RVal.HasTypeT p fields vs → RVal.HasType p (.path x) (.tuple x vs)
  | variant (x : String) (variants : List (String × RTy)) (shown : List String) (arms : List (List Char × String))
      (other : ROther) (chars : Option (List String)) (y : String) (t : RTy) (v : RVal) :
      p.find x = some (.enum x variants shown arms other chars) → variants.lookup y = some t → RVal.HasType p t v →
      RVal.HasType p (.path x) (.variant x y v)
  | alias (x : String) (t : RTy) (v : RVal) : p.find x = some (.alias x t) → RVal.HasType p t v → RVal.HasType p (.path x) v
  | boxed (t : RTy) (v : RVal) : RVal.HasType p t v → RVal.HasType p (.boxed t) (.boxed v)
/-- Named fields. -/
inductive RVal.HasTypeN (p : RProg) : List (String × RTy) → List (String × RVal) → Prop
  | nil : RVal.HasTypeN p [] []
  | cons (f : String) (t : RTy) (v : RVal) (l : List (String × RTy)) (vs : List (String × RVal)) : RVal.HasType p t v →
      RVal.HasTypeN p l vs → RVal.HasTypeN p ((f, t) :: l) ((f, v) :: vs)
/-- Numbered fields. -/
inductive RVal.HasTypeT (p : RProg) : List RTy → List RVal → Prop
  | nil : RVal.HasTypeT p [] []
  | cons (t : RTy) (v : RVal) (l : List RTy) (vs : List RVal) : RVal.HasType p t v → RVal.HasTypeT p l vs →
      RVal.HasTypeT p (t :: l) (v :: vs)
end

/-! ## What the compiler checks -/

/-- The types an item mentions. -/
def RItem.types : RItem → List RTy
  | .unit _ _ _ _ => []
  | .named _ fields _ _ _ => fields.map (·.2)
  | .tuple _ fields _ _ _ => fields
  | .enum _ variants _ _ _ _ => variants.map (·.2)
  | .alias _ t => [t]

/-- The names of the fields or variants of an item. -/
def RItem.parts : RItem → List String
  | .named _ fields _ _ _ => fields.map (·.1)
  | .enum _ variants _ _ _ _ => variants.map (·.1)
  | _ => []

/-- Every name in a type is defined in the program or imported. -/
def RTy.Defined (p : RProg) : RTy → Prop
  | .path x => p.find x ≠ none ∨ x = "Epsilon"
  | .boxed t => t.Defined p

/-- The types stored directly in a value of a type, and the target of an alias. -/
def RProg.inside (p : RProg) : RTy → List RTy
  | .path x =>
    match p.find x with
    | some i => i.types
    | none => []
  | .boxed _ => []

/-- What has to be expanded to know a type: the target of an alias and the content of a `Box`. -/
def RProg.expands (p : RProg) : RTy → List RTy
  | .path x =>
    match p.find x with
    | some (.alias _ t) => [t]
    | _ => []
  | .boxed t => [t]

/-- There is an `impl From<t> for char`. -/
inductive RTy.HasChar (p : RProg) : RTy → Prop
  | unit (x : String) (s s' : List Char) (c : Char) : p.find x = some (.unit x s s' (some c)) → RTy.HasChar p (.path x)
  | enum (x : String) (variants : List (String × RTy)) (shown : List String) (arms : List (List Char × String))
      (other : ROther) (chars : List String) : p.find x = some (.enum x variants shown arms other (some chars)) →
      RTy.HasChar p (.path x)
  | alias (x : String) (t : RTy) : p.find x = some (.alias x t) → RTy.HasChar p t → RTy.HasChar p (.path x)

/-- The bodies of the `impl`s of an item make sense: struct expressions give every field once, from
variables that are bound and not used twice, and every variable is used, so that its type is known;
matches are exhaustive and their arms name variants (a match without arms on a reference is an error);
displayed fields exist; `inner.into()` finds an `impl`. -/
def RItem.BodyOk (p : RProg) : RItem → Prop
  | .unit _ _ _ _ => True
  | .named _ fields shown lets build =>
    (∀ x ∈ shown, x ∈ fields.map (·.1)) ∧ lets.Nodup ∧ (build.map (·.1)).Nodup ∧ (build.map (·.2)).Nodup ∧
      (∀ x, x ∈ build.map (·.1) ↔ x ∈ fields.map (·.1)) ∧ ∀ x, x ∈ build.map (·.2) ↔ x ∈ lets
  | .tuple _ fields shown lets build =>
    (∀ i ∈ shown, i < fields.length) ∧ lets.Nodup ∧ build.Nodup ∧ build.length = fields.length ∧ ∀ x, x ∈ build ↔ x ∈ lets
  | .enum _ variants shown arms other chars =>
    variants ≠ [] ∧ (∀ x, x ∈ shown ↔ x ∈ variants.map (·.1)) ∧ (∀ a ∈ arms, a.1 ≠ [] ∧ a.2 ∈ variants.map (·.1)) ∧
      (∀ x, other = .take x → x ∈ variants.map (·.1)) ∧
      ∀ xs, chars = some xs → (∀ x, x ∈ xs ↔ x ∈ variants.map (·.1)) ∧ ∀ t ∈ variants.map (·.2), t.HasChar p
  | .alias _ _ => True

/-- The program passes the checks of the Rust compiler. -/
structure RProg.Compiles (p : RProg) : Prop where
  /-- no type is defined twice -/
  names : (p.map RItem.name).Nodup
  /-- no field or variant is declared twice -/
  parts : ∀ i ∈ p, i.parts.Nodup
  /-- no undefined type -/
  defined : ∀ i ∈ p, ∀ t ∈ i.types, t.Defined p
  bodies : ∀ i ∈ p, i.BodyOk p
  /-- no type of infinite size -/
  sized : WellFounded fun a b => a ∈ p.inside b
  /-- no circular alias -/
  aliases : WellFounded fun a b => a ∈ p.expands b

end Chomp
