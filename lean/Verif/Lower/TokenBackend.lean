import Verif.Lower.Tokens

/-!
# The backend as it is written: `/repo/src/lower/mod.rs`

`Verif/Lower/Model.lean` keeps a description of every generated type in its table.  The code keeps tokens: the
name of a type, written once, and the tokens of its definition, written when the type is made, from the
names that the table holds at that time.  This file models just that; `Verif/Lower/TokenSim.lean` proves
that the two agree.  What is not a token (case conversion, numbering, first sets) is shared with the
other model.
-/

namespace Chomp

/-- `src/lower/mod.rs:21-26`: `Ty`. The set `deps` is kept as the list it is made of. -/
structure TTy where
  name : List RTok
  rest : List RTok
  deps : List Nat

/-- `src/lower/mod.rs:28-41`: `RustBackend`. -/
structure TBackend where
  data : List TTy := []
  epsId : Option Nat := none
  litMap : List (List Char × Nat) := []
  catMap : List (List Nat × Nat) := []
  altMap : List (List Nat × Nat) := []
  fixMap : List (TE × Nat) := []
  varMap : List (Nat × Nat) := []
  nameMap : List (String × Nat) := []
  canChar : List Nat := []
  context : List Nat := []

/-- `src/lower/mod.rs:46-58`: `new_type_name`. -/
def TBackend.newTypeName (cas : Casing) (pre : String) (nm : Option Name) (s : TBackend) : Except GenPanic (String × TBackend) :=
  match nm with
  | none => .ok (pre ++ digits (s.data.length + 1), s)
  | some n =>
    match cas.camel n.content.hashed with
    | none => .error .badName
    | some c =>
      let k := (s.nameMap.lookup c).getD 0 + 1
      .ok (c ++ digits k, { s with nameMap := (c, k) :: s.nameMap })

/-- `src/lower/mod.rs:92-97`: `ty_names`: `self.data[id].name.clone()` for every id. -/
def TBackend.tyNames (s : TBackend) : List Nat → Except GenPanic (List (List RTok))
  | [] => .ok []
  | i :: l =>
    match s.data[i]? with
    | none => .error .index
    | some e => (s.tyNames l).map (e.name :: ·)

/-- `src/lower/mod.rs:158-170`: `gen_epsilon`. -/
def genEpsT (s : TBackend) : Nat × TBackend :=
  match s.epsId with
  | some id => (id, s)
  | none => (s.data.length, { s with data := s.data ++ [⟨[.id "Epsilon"], [], []⟩] })

/-- `src/lower/mod.rs:172-219`: `gen_literal`. -/
def genLitT (doc : List Char → List Char) (cas : Casing) (nm : Option Name) (str : List Char) (s : TBackend) :
    Except GenPanic (Nat × TBackend) :=
  match s.litMap.lookup str with
  | some id => .ok (id, s)
  | none =>
    (s.newTypeName cas "Lit" nm).map fun (name, s) =>
      match str with
      | [c] =>
        (s.data.length,
          { s with
            data := s.data ++ [⟨[.id name], litToks doc name str str (some c), []⟩]
            litMap := (str, s.data.length) :: s.litMap
            canChar := s.data.length :: s.canChar })
      | _ =>
        (s.data.length,
          { s with
            data := s.data ++ [⟨[.id name], litToks doc name str str none, []⟩]
            litMap := (str, s.data.length) :: s.litMap })

/-- `src/lower/mod.rs:224-283`: `gen_cat` after `recurse_exprs`. -/
def genCatT (cas : Casing) (nm : Option Name) (names : List (Option Name)) (ids : List Nat) (s : TBackend) :
    Except GenPanic (Nat × TBackend) :=
  match s.catMap.lookup ids with
  | some id => .ok (id, s)
  | none =>
    (s.newTypeName cas "Cat" nm).bind fun (name, s) =>
      (s.tyNames ids).bind fun tyNames =>
        (partNames cas.snake "part" 0 [] names).map fun nameParts =>
          let indexes := List.range names.length
          let numberParts := numberParts 0 names.length
          let rest :=
            if names.any Option.isSome then
              namedToks name (nameParts.zip tyNames) nameParts numberParts (nameParts.zip numberParts)
            else tupleToks name tyNames indexes numberParts numberParts
          (s.data.length,
            { s with
              data := s.data ++ [⟨[.id name], rest, ids⟩]
              catMap := (ids, s.data.length) :: s.catMap })

/-- `src/lower/mod.rs:288-378`: `gen_alt` after `recurse_exprs`. -/
def genAltT (cas : Casing) (nm : Option Name) (tys : List Ty) (names : List (Option Name)) (ids : List Nat) (s : TBackend) :
    Except GenPanic (Nat × TBackend) :=
  match s.altMap.lookup ids with
  | some id => .ok (id, s)
  | none =>
    (s.newTypeName cas "Alt" nm).bind fun (name, s) =>
      (s.tyNames ids).bind fun tyNames =>
        (partNames cas.camel "Branch" 0 [] names).map fun nameParts =>
          let all := ids.all fun id => s.canChar.contains id
          let rest := enumToks name (nameParts.zip tyNames) nameParts (enumArms tys nameParts) (enumOther tys nameParts)
            (if all then some nameParts else none)
          (s.data.length,
            { s with
              data := s.data ++ [⟨[.id name], rest, ids⟩]
              altMap := (ids, s.data.length) :: s.altMap
              canChar := if all then s.data.length :: s.canChar else s.canChar })

/-- `self.fix_map.get(&inner)`. -/
def TBackend.findFix (s : TBackend) (b : TE) : Option Nat := (s.fixMap.find? fun p => p.1.eqv b).map (·.2)

/-- `src/lower/mod.rs:407-425`: `gen_variable`. -/
def genVarT (i : Nat) (s : TBackend) : Except GenPanic (Nat × TBackend) :=
  if i < s.context.length then
    match s.context[s.context.length - i - 1]? with
    | none => .error .index
    | some f =>
      match s.varMap.lookup f with
      | some id => .ok (id, s)
      | none =>
        match s.data[f]? with
        | none => .error .index
        | some e =>
          .ok (s.data.length,
            { s with
              data := s.data ++ [⟨[.id "Box", .op "<"] ++ e.name ++ [.op ">"], [], []⟩]
              varMap := (f, s.data.length) :: s.varMap })
  else .error .index

mutual
/-- `src/chomp/typed/lower.rs:33-42`: `TypedExpression::gen`, and `src/lower/mod.rs:221-222,285-286`
(the recursion of `gen_cat` and `gen_alt`), `src/lower/mod.rs:380-405` (`gen_fix`). -/
def genT (doc : List Char → List Char) (cas : Casing) : TE → TBackend → Except GenPanic (Nat × TBackend)
  | .eps _, s => .ok (genEpsT s)
  | .lit nm str, s => genLitT doc cas nm str s
  | .cat nm _ l, s => (genTL doc cas l s).bind fun (ids, s) => genCatT cas nm (l.map TE.name) ids s
  | .alt nm _ l, s => (genTL doc cas l s).bind fun (ids, s) => genAltT cas nm (l.map TE.ty) (l.map TE.name) ids s
  | .fix nm b, s =>
    match s.findFix b with
    | some id => .ok (id, s)
    | none =>
      (s.newTypeName cas "Fix" nm).bind fun (name, s) =>
        let id := s.data.length
        (genT doc cas b
          { s with
            fixMap := (b, id) :: s.fixMap
            data := s.data ++ [⟨[.id name], [], []⟩]
            context := s.context ++ [id] }).bind fun (inner, s) =>
          match s.data[inner]? with
          | none => .error .index
          | some ty =>
            match s.data[id]? with
            | none => .error .index
            | some old =>
              .ok (id,
                { s with
                  context := s.context.dropLast
                  data := s.data.set id ⟨old.name, aliasToks name ty.name, [inner]⟩ })
  | .var _ i _, s => genVarT i s
/-- `src/lower/mod.rs:60-75`: `recurse_exprs`. -/
def genTL (doc : List Char → List Char) (cas : Casing) : List TE → TBackend → Except GenPanic (List Nat × TBackend)
  | [], s => .ok ([], s)
  | e :: l, s => (genT doc cas e s).bind fun (id, s) => (genTL doc cas l s).map fun (ids, s) => (id :: ids, s)
end

/-- `src/lower/mod.rs:439-443`: the inner loop of `emit_code` over the ids in `next`; returns the new `todo` and the
tokens so far. -/
def emitRoundT (data : List TTy) (completed : List Nat) : List Nat → List Nat → List RTok → Except GenPanic (List Nat × List RTok)
  | [], todo, tokens => .ok (todo, tokens)
  | id :: next, todo, tokens =>
    match data[id]? with
    | none => .error .index
    | some ty =>
      emitRoundT data completed next (extendNat todo (ty.deps.filter fun d => !completed.contains d)) (tokens ++ ty.rest)

/-- `src/lower/mod.rs:435-444`: the outer loop of `emit_code`.  Fuel bounds the number of rounds; `none` means out of
fuel. -/
def emitLoopT (data : List TTy) : Nat → List Nat → List Nat → List RTok → Option (Except GenPanic (List RTok))
  | _, [], _, tokens => some (.ok tokens)
  | 0, _ :: _, _, _ => none
  | n + 1, todo@(_ :: _), completed, tokens =>
    let completed := extendNat completed todo
    match emitRoundT data completed todo [] tokens with
    | .error e => some (.error e)
    | .ok (todo', tokens) => emitLoopT data n todo' completed tokens

/-- `src/lower/mod.rs:427-462`: `emit_code` for the root `id`. -/
def TBackend.emitCode (s : TBackend) (n : Nat) (name : Option Name) (id : Nat) : Option (Except GenPanic (List RTok)) :=
  match emitLoopT s.data n [id] [] Q.use with
  | none => none
  | some (.error e) => some (.error e)
  | some (.ok tokens) =>
    match s.data[id]? with
    | none => some (.error .index)
    | some root =>
      let ident :=
        match name with
        | some n =>
          n.content.hashed ++
            digits ((match n.content with | .spanned true _ _ => 0 | c => (s.nameMap.lookup c.hashed).getD 0) + 1)
        | none => "Ast"
      some (.ok (tokens ++ aliasToks ident root.name))

end Chomp
