import Verif.Lower.Runtime
import Verif.Lower.Ref

/-!
# The Rust backend: `/repo/src/lower/mod.rs`

Tokens are modelled in `Verif/Lower/TokenBackend.lean`, and proved to be what is described here.  What a generated type *is* is recorded in `Entry`: its name, the shape of its
definition and its `Parse` implementation (`node`), the names of its fields or variants, its
dependencies, and whether it has an `impl From<_> for char`.
-/

namespace Chomp

/-- The case conversions of the crate `heck` followed by `Ident::new`, which panics (`none`) if the
result is not an identifier (e.g. for the name `__`).  Every statement about the backend holds for all
such functions. -/
structure Casing where
  camel : String → Option String
  snake : String → Option String

/-- How code generation can panic. -/
inductive GenPanic where
  /-- `Ident::new` on something that is not an identifier -/
  | badName
  /-- an index into the context or into the table is out of range -/
  | index
deriving DecidableEq, Repr

/-- `src/lower/mod.rs:21-26`: `Ty`, see above.  `fields` holds the names of the fields of a struct with
named fields and of the variants of an enum. -/
structure Entry where
  name : String
  node : NodeF Nat
  fields : List String
  deps : List Nat
  toChar : Bool

/-- Derived equality of `Option<Name>`. -/
def optNameEqv : Option Name → Option Name → Bool
  | none, none => true
  | some a, some b => a.eqv b
  | _, _ => false

mutual
/-- `src/chomp/typed/mod.rs:222-226` and the derived `PartialEq`s: equality of typed expressions (spans
are ignored, the types of subexpressions are compared). -/
def TE.eqv : TE → TE → Bool
  | .eps n, .eps n' => optNameEqv n n'
  | .lit n s, .lit n' s' => s == s' && optNameEqv n n'
  | .cat n t l, .cat n' t' l' => TE.eqvL l l' && decide (t = t') && optNameEqv n n'
  | .alt n t l, .alt n' t' l' => TE.eqvL l l' && decide (t = t') && optNameEqv n n'
  | .fix n b, .fix n' b' => b.eqv b' && optNameEqv n n'
  | .var n i t, .var n' i' t' => i == i' && decide (t = t') && optNameEqv n n'
  | _, _ => false
def TE.eqvL : List TE → List TE → Bool
  | [], [] => true
  | e :: l, e' :: l' => e.eqv e' && TE.eqvL l l'
  | _, _ => false
end

/-- `src/lower/mod.rs:28-41`: `RustBackend`.  Maps are association lists, newest entry first; `fix_map`
is keyed by expressions with an equality that need not be transitive (C09), the model takes the newest
matching entry where a `HashMap` may return any (the theorems do not depend on the choice).
`eps_id` is read but never written by the code. -/
structure BState where
  data : List Entry := []
  epsId : Option Nat := none
  litMap : List (List Char × Nat) := []
  catMap : List (List Nat × Nat) := []
  altMap : List (List Nat × Nat) := []
  fixMap : List (TE × Nat) := []
  varMap : List (Nat × Nat) := []
  nameMap : List (String × Nat) := []
  canChar : List Nat := []
  context : List Nat := []

/-- `format!("{}", n)` for a number. -/
def digits (n : Nat) : String := toString n

/-- `src/lower/mod.rs:46-58`: `new_type_name`; the id is `self.data.len()`. -/
def BState.newTypeName (cas : Casing) (pre : String) (nm : Option Name) (s : BState) : Except GenPanic (String × BState) :=
  match nm with
  | none => .ok (pre ++ digits (s.data.length + 1), s)
  | some n =>
    match cas.camel n.content.hashed with
    | none => .error .badName
    | some c =>
      let k := (s.nameMap.lookup c).getD 0 + 1
      .ok (c ++ digits k, { s with nameMap := (c, k) :: s.nameMap })

/-- `src/lower/mod.rs:99-133`: `name_parts_snake` and `name_parts_camel`: `conv` is the case conversion,
`i` the index of the next part and `m` the counts so far. -/
def partNames (conv : String → Option String) (dflt : String) : Nat → List (String × Nat) → List (Option Name) →
    Except GenPanic (List String)
  | _, _, [] => .ok []
  | i, m, none :: l => (partNames conv dflt (i + 1) m l).map ((dflt ++ digits (i + 1)) :: ·)
  | i, m, some n :: l =>
    match conv n.content.hashed with
    | none => .error .badName
    | some c =>
      let k := (m.lookup c).getD 0 + 1
      (partNames conv dflt (i + 1) ((c, k) :: m) l).map ((c ++ digits k) :: ·)

/-- `self.data[id].name` for every id: `ty_names`, `src/lower/mod.rs:92-97`. -/
def BState.tyNames (s : BState) : List Nat → Except GenPanic (List String)
  | [] => .ok []
  | i :: l =>
    match s.data[i]? with
    | none => .error .index
    | some e => (s.tyNames l).map (e.name :: ·)

/-- `src/lower/mod.rs:158-170`: `gen_epsilon`. -/
def genEps (s : BState) : Nat × BState :=
  match s.epsId with
  | some id => (id, s)
  | none => (s.data.length, { s with data := s.data ++ [⟨"Epsilon", .eps, [], [], false⟩] })

/-- `src/lower/mod.rs:172-219`: `gen_literal`. -/
def genLit (cas : Casing) (nm : Option Name) (str : List Char) (s : BState) : Except GenPanic (Nat × BState) :=
  match s.litMap.lookup str with
  | some id => .ok (id, s)
  | none =>
    (s.newTypeName cas "Lit" nm).map fun (name, s) =>
      let one := match str with | [_] => true | _ => false
      (s.data.length,
        { s with
          data := s.data ++ [⟨name, .lit str, [], [], one⟩]
          litMap := (str, s.data.length) :: s.litMap
          canChar := if one then s.data.length :: s.canChar else s.canChar })

/-- `src/lower/mod.rs:221-283`: `gen_cat` after `recurse_exprs`. -/
def genCat (cas : Casing) (nm : Option Name) (names : List (Option Name)) (ids : List Nat) (s : BState) :
    Except GenPanic (Nat × BState) :=
  match s.catMap.lookup ids with
  | some id => .ok (id, s)
  | none =>
    (s.newTypeName cas "Cat" nm).bind fun (name, s) =>
      (s.tyNames ids).bind fun _ =>
        (partNames cas.snake "part" 0 [] names).map fun parts =>
          (s.data.length,
            { s with
              data := s.data ++ [⟨name, .cat ids, if names.any Option.isSome then parts else [], ids, false⟩]
              catMap := (ids, s.data.length) :: s.catMap })

/-- `src/lower/mod.rs:285-378`: `gen_alt` after `recurse_exprs`. -/
def genAlt (cas : Casing) (nm : Option Name) (tys : List Ty) (names : List (Option Name)) (ids : List Nat) (s : BState) :
    Except GenPanic (Nat × BState) :=
  match s.altMap.lookup ids with
  | some id => .ok (id, s)
  | none =>
    (s.newTypeName cas "Alt" nm).bind fun (name, s) =>
      (s.tyNames ids).bind fun _ =>
        (partNames cas.camel "Branch" 0 [] names).map fun parts =>
          let all := ids.all fun id => s.canChar.contains id
          (s.data.length,
            { s with
              data := s.data ++ [⟨name, .alt tys ids, parts, ids, all⟩]
              altMap := (ids, s.data.length) :: s.altMap
              canChar := if all then s.data.length :: s.canChar else s.canChar })

/-- `self.fix_map.get(&inner)`. -/
def BState.findFix (s : BState) (b : TE) : Option Nat := (s.fixMap.find? fun p => p.1.eqv b).map (·.2)

/-- `src/lower/mod.rs:407-425`: `gen_variable`. -/
def genVar (i : Nat) (s : BState) : Except GenPanic (Nat × BState) :=
  if i < s.context.length then
    match s.context[s.context.length - i - 1]? with
    | none => .error .index
    | some f =>
      match s.varMap.lookup f with
      | some id => .ok (id, s)
      | none =>
        match s.data[f]? with
        | none => .error .index
        | some e =>
          .ok (s.data.length,
            { s with
              data := s.data ++ [⟨"Box<" ++ e.name ++ ">", .box f, [], [], false⟩]
              varMap := (f, s.data.length) :: s.varMap })
  else .error .index

mutual
/-- `src/chomp/typed/lower.rs:33-42`: `TypedExpression::gen`, and `src/lower/mod.rs:221-222,285-286`
(the recursion of `gen_cat` and `gen_alt`), `src/lower/mod.rs:380-405` (`gen_fix`). -/
def gen (cas : Casing) : TE → BState → Except GenPanic (Nat × BState)
  | .eps _, s => .ok (genEps s)
  | .lit nm str, s => genLit cas nm str s
  | .cat nm _ l, s => (genL cas l s).bind fun (ids, s) => genCat cas nm (l.map TE.name) ids s
  | .alt nm _ l, s => (genL cas l s).bind fun (ids, s) => genAlt cas nm (l.map TE.ty) (l.map TE.name) ids s
  | .fix nm b, s =>
    match s.findFix b with
    | some id => .ok (id, s)
    | none =>
      (s.newTypeName cas "Fix" nm).bind fun (name, s) =>
        let id := s.data.length
        (gen cas b
          { s with
            fixMap := (b, id) :: s.fixMap
            data := s.data ++ [⟨name, .bad, [], [], false⟩]
            context := s.context ++ [id] }).bind fun (inner, s) =>
          match s.data[inner]? with
          | none => .error .index
          | some _ =>
            .ok (id,
              { s with
                context := s.context.dropLast
                data := s.data.set id ⟨name, .alias inner, [], [inner], false⟩ })
  | .var _ i _, s => genVar i s
/-- `src/lower/mod.rs:60-75`: `recurse_exprs`. -/
def genL (cas : Casing) : List TE → BState → Except GenPanic (List Nat × BState)
  | [], s => .ok ([], s)
  | e :: l, s => (gen cas e s).bind fun (id, s) => (genL cas l s).map fun (ids, s) => (id :: ids, s)
end

/-- The generated type with the given id, as a parser definition. -/
def BState.step (s : BState) (id : Nat) : NodeF Nat :=
  match s.data[id]? with
  | some e => e.node
  | none => .bad

/-- `Parse::take` of the generated type `id`. -/
def BState.take (s : BState) (n : Nat) (id : Nat) (w : IW) : Res Tree := run s.step n id w

/-! ## Emission -/

/-- Insertion into a `BTreeSet<usize>` (a sorted list without repetitions). -/
def insertNat (a : Nat) : List Nat → List Nat
  | [] => [a]
  | b :: l => if a < b then a :: b :: l else if a = b then b :: l else b :: insertNat a l

/-- `BTreeSet::extend`. -/
def extendNat (set : List Nat) (l : List Nat) : List Nat := l.foldl (fun s a => insertNat a s) set

/-- `src/lower/mod.rs:439-443`: the inner loop of `emit_code` over the ids in `next`; returns the new
`todo`.  The model records which ids are emitted instead of their tokens. -/
def emitRound (data : List Entry) (completed : List Nat) : List Nat → List Nat → Except GenPanic (List Nat)
  | [], todo => .ok todo
  | id :: next, todo =>
    match data[id]? with
    | none => .error .index
    | some e => emitRound data completed next (extendNat todo (e.deps.filter fun d => !completed.contains d))

/-- `src/lower/mod.rs:435-444`: the outer loop of `emit_code`; the result lists the emitted ids in
order.  Fuel bounds the number of rounds; `none` means out of fuel. -/
def emitLoop (data : List Entry) : Nat → List Nat → List Nat → List Nat → Option (Except GenPanic (List Nat))
  | _, [], _, out => some (.ok out)
  | 0, _ :: _, _, _ => none
  | n + 1, todo@(_ :: _), completed, out =>
    let completed := extendNat completed todo
    match emitRound data completed todo [] with
    | .error e => some (.error e)
    | .ok todo' => emitLoop data n todo' completed (out ++ todo)

/-- A definition in the emitted program. -/
structure Def where
  name : String
  node : NodeF Nat
  fields : List String

/-- `src/lower/mod.rs:435-444`: the definitions emitted for the root `id`. -/
def BState.emitIds (s : BState) (n id : Nat) : Option (Except GenPanic (List Nat)) := emitLoop s.data n [id] [] []

/-- The tokens of an entry define a type, unless it is `Epsilon` or a `Box` (`TokenStream::new()`,
`src/lower/mod.rs:166,420`). -/
def Entry.defines (e : Entry) : Bool :=
  match e.node with
  | .eps => false
  | .box _ => false
  | _ => true

/-- `src/lower/mod.rs:448-459`: the name of the final type alias of `emit_code` (all callers in `/repo`
pass `None`).  `format_ident!` drops the `r#` of a raw identifier; the keys of `name_map` are not raw. -/
def BState.rootName (s : BState) : Option Name → String
  | some n =>
    n.content.hashed ++
      digits ((match n.content with | .spanned true _ _ => 0 | c => (s.nameMap.lookup c.hashed).getD 0) + 1)
  | none => "Ast"

end Chomp
