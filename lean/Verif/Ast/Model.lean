import Verif.Ast.Name

/-!
# The expression AST, substitution and reduction

`/repo/src/chomp/ast/mod.rs`, `/repo/src/chomp/ast/substitute.rs`, `/repo/src/chomp/ast/error.rs`.
-/

namespace Chomp

/-- Outcome of a compiler pass: a value, an error value, a panic (arithmetic underflow in a debug
build, out-of-range index, ...), or – model only – exhausted fuel. -/
inductive Out (ε α : Type) where
  | ok (a : α)
  | err (e : ε)
  | panic
  | oof
deriving DecidableEq, Repr

/-- The `?` operator followed by the rest of the function. -/
def Out.bind {ε α β : Type} (x : Out ε α) (f : α → Out ε β) : Out ε β :=
  match x with
  | .ok a => f a
  | .err e => .err e
  | .panic => .panic
  | .oof => .oof

/-- A computation that can panic but not fail. -/
def Out.ofOption {ε α : Type} : Option α → Out ε α
  | some a => .ok a
  | none => .panic

/-- `src/chomp/ast/mod.rs:255-259`: the name and span of a `NamedExpression`. -/
structure Info where
  name : Option Name
  span : Nat
deriving DecidableEq, Repr

/-- `src/chomp/ast/mod.rs:10-20,45-49,75-78,86-89,97-102,116-121,138-144,152-172,254-259`: `NamedExpression` and `Expression` merged into one type:
every constructor of `Expression` carries the name and the span of the `NamedExpression` around it.
The spans in `rest` are those of the `.` and `|` tokens. -/
inductive NE where
  | eps (i : Info)
  | lit (i : Info) (s : List Char)
  | cat (i : Info) (first : NE) (rest : List (Nat × NE))
  | alt (i : Info) (first : NE) (rest : List (Nat × NE))
  | fix (i : Info) (inner : NE)
  | var (i : Info) (index : Nat)
  | call (i : Info) (on : NE) (args : List NE)
  | lam (i : Info) (args : List Name) (inner : NE)
  | letE (i : Info) (name : Name) (bound body : NE)
deriving Repr

/-- The `name` and `span` fields. -/
def NE.info : NE → Info
  | .eps i | .lit i _ | .cat i _ _ | .alt i _ _ | .fix i _ | .var i _ | .call i _ _ | .lam i _ _
  | .letE i _ _ _ => i

/-- Assignment to the `name` and `span` fields. -/
def NE.setInfo (i : Info) : NE → NE
  | .eps _ => .eps i
  | .lit _ s => .lit i s
  | .cat _ f r => .cat i f r
  | .alt _ f r => .alt i f r
  | .fix _ b => .fix i b
  | .var _ n => .var i n
  | .call _ o a => .call i o a
  | .lam _ a b => .lam i a b
  | .letE _ n b c => .letE i n b c

/-- Assignment to the `name` field. -/
def NE.setName (n : Option Name) (e : NE) : NE := e.setInfo ⟨n, e.info.span⟩

mutual
/-- `src/chomp/ast/mod.rs:276-280` with the derived and hand-written `PartialEq` implementations of
`src/chomp/ast/mod.rs:31-41,61-71,75,86,98,117,139,152`: equality of expressions ignores names and spans of expressions but
compares the parameter names of lambdas and the names of lets (with `Name`'s own equality). -/
def NE.eqv : NE → NE → Bool
  | .eps _, .eps _ => true
  | .lit _ s, .lit _ t => s == t
  | .cat _ f r, .cat _ f' r' => f.eqv f' && NE.eqvP r r'
  | .alt _ f r, .alt _ f' r' => f.eqv f' && NE.eqvP r r'
  | .fix _ b, .fix _ b' => b.eqv b'
  | .var _ n, .var _ m => n == m
  | .call _ o a, .call _ o' a' => o.eqv o' && NE.eqvL a a'
  | .lam _ a b, .lam _ a' b' =>
    (a.length == a'.length && (a.zip a').all fun p => p.1.eqv p.2) && b.eqv b'
  | .letE _ n b c, .letE _ n' b' c' => n.eqv n' && b.eqv b' && c.eqv c'
  | _, _ => false
/-- Slice equality on `rest`, ignoring the spans. -/
def NE.eqvP : List (Nat × NE) → List (Nat × NE) → Bool
  | [], [] => true
  | (_, e) :: l, (_, e') :: l' => e.eqv e' && NE.eqvP l l'
  | _, _ => false
/-- `Vec` equality. -/
def NE.eqvL : List NE → List NE → Bool
  | [], [] => true
  | e :: l, e' :: l' => e.eqv e' && NE.eqvL l l'
  | _, _ => false
end

/-- `src/chomp/ast/substitute.rs:13-16`: `Direction`. -/
inductive Direction where
  | deepen | shallow
deriving DecidableEq, Repr

mutual
/-- `src/chomp/ast/substitute.rs:17-124`: mapping `RenameVars { depth, by, direction }` over an
expression.  `none` is the underflow panic of `var.index -= self.by`.  The field `depth` is passed
down: the code increments it before and decrements it by the same amount after each binder. -/
def NE.rename (dir : Direction) (n depth : Nat) : NE → Option NE
  | .eps i => some (.eps i)
  | .lit i s => some (.lit i s)
  | .cat i f r => do
    let f ← f.rename dir n depth
    let r ← NE.renameP dir n depth r
    some (.cat i f r)
  | .alt i f r => do
    let f ← f.rename dir n depth
    let r ← NE.renameP dir n depth r
    some (.alt i f r)
  | .fix i b => do
    let b ← b.rename dir n depth
    some (.fix i b)
  | .var i k =>
    if k ≥ depth then
      match dir with
      | .deepen => some (.var i (k + n))
      | .shallow => if k < n then none else some (.var i (k - n))
    else some (.var i k)
  | .call i o a => do
    let o ← o.rename dir n depth
    let a ← NE.renameL dir n depth a
    some (.call i o a)
  | .lam i a b => do
    let b ← b.rename dir n (depth + a.length)
    some (.lam i a b)
  | .letE i x b c => do
    let b ← b.rename dir n depth
    let c ← c.rename dir n (depth + 1)
    some (.letE i x b c)
/-- `src/chomp/ast/substitute.rs:49-51,61-63`: the loops over `rest`. -/
def NE.renameP (dir : Direction) (n depth : Nat) : List (Nat × NE) → Option (List (Nat × NE))
  | [] => some []
  | (s, e) :: l => do
    let e ← e.rename dir n depth
    let l ← NE.renameP dir n depth l
    some ((s, e) :: l)
/-- `src/chomp/ast/substitute.rs:96-98`: the loop over `args`. -/
def NE.renameL (dir : Direction) (n depth : Nat) : List NE → Option (List NE)
  | [] => some []
  | e :: l => do
    let e ← e.rename dir n depth
    let l ← NE.renameL dir n depth l
    some (e :: l)
end

/-- `src/chomp/ast/substitute.rs:126-129`: `Substitute`. -/
structure Sub where
  index : Nat
  expr : NE
deriving Repr

/-- `src/chomp/ast/substitute.rs:132-147`: the entry half of `Substitute::with_args`. -/
def Sub.enter (n : Nat) (st : Sub) : Option Sub := do
  let e ← st.expr.rename .deepen n 0
  some ⟨st.index + n, e⟩

/-- `src/chomp/ast/substitute.rs:132-147`: the exit half of `Substitute::with_args`, which undoes the
entry half by renaming back; `none` is an underflow panic. -/
def Sub.leave (n : Nat) (st : Sub) : Option Sub := do
  let e ← st.expr.rename .shallow n 0
  if st.index < n then none else some ⟨st.index - n, e⟩

mutual
/-- `src/chomp/ast/substitute.rs:150-266`: folding with `Substitute`; the folder is mutable state, so
its final value is returned too.  `none` is an underflow panic. -/
def NE.substS (st : Sub) : NE → Option (NE × Sub)
  | .eps i => some (.eps i, st)
  | .lit i s => some (.lit i s, st)
  | .cat i f r => do
    let (f, st) ← f.substS st
    let (r, st) ← NE.substP st r
    some (.cat i f r, st)
  | .alt i f r => do
    let (f, st) ← f.substS st
    let (r, st) ← NE.substP st r
    some (.alt i f r, st)
  | .fix i b => do
    let (b, st) ← b.substS st
    some (.fix i b, st)
  | .var i k =>
    if k = st.index then some (st.expr.setName (Name.merge st.expr.info.name i.name), st)
    else some (.var i (if k > st.index then k - 1 else k), st)
  | .call i o a => do
    let (o, st) ← o.substS st
    let (a, st) ← NE.substL st a
    some (.call i o a, st)
  | .lam i a b => do
    let st ← st.enter a.length
    let (b, st) ← b.substS st
    let st ← st.leave a.length
    some (.lam i a b, st)
  | .letE i x b c => do
    let (b, st) ← b.substS st
    let st ← st.enter 1
    let (c, st) ← c.substS st
    let st ← st.leave 1
    some (.letE i x b c, st)
/-- `src/chomp/ast/substitute.rs:171-175,185-189`: the maps over `rest`. -/
def NE.substP (st : Sub) : List (Nat × NE) → Option (List (Nat × NE) × Sub)
  | [] => some ([], st)
  | (s, e) :: l => do
    let (e, st) ← e.substS st
    let (l, st) ← NE.substP st l
    some ((s, e) :: l, st)
/-- `src/chomp/ast/substitute.rs:234`: the map over `args`. -/
def NE.substL (st : Sub) : List NE → Option (List NE × Sub)
  | [] => some ([], st)
  | e :: l => do
    let (e, st) ← e.substS st
    let (l, st) ← NE.substL st l
    some (e :: l, st)
end

/-- `out.fold(&mut Substitute { index, expr })` where the folder is dropped afterwards. -/
def NE.substitute (e : NE) (index : Nat) (expr : NE) : Option NE := (e.substS ⟨index, expr⟩).map (·.1)

/-- `src/chomp/ast/error.rs:9-19`: `ReductionError`. -/
inductive RErr where
  | callNotAFunction (on : NE) (span : Nat)
  | wrongArgCount (lambda : NE) (args : List NE) (span : Nat)
deriving Repr

/-- `src/chomp/ast/substitute.rs:363-374`: one iteration of the argument loop of
`Reduce::fold_call`. -/
def applyArg (out : NE) (p : (NE × Nat) × Name) : Option NE := do
  let arg := p.1.1.setName (Name.merge p.1.1.info.name (some p.2))
  let arg ← arg.rename .deepen p.1.2 0
  out.substitute 0 arg

/-- A left fold in the option monad. -/
def foldOpt {α β : Type} (f : β → α → Option β) : β → List α → Option β
  | b, [] => some b
  | b, a :: l => (f b a).bind fun b => foldOpt f b l

/-- `src/chomp/ast/substitute.rs:363-374`: the argument loop of `Reduce::fold_call`
(`call.args.into_iter().enumerate().zip(lambda.args).rev()`). -/
def applyArgs (body : NE) (params : List Name) (args : List NE) : Option NE :=
  foldOpt applyArg body (args.zipIdx.zip params).reverse

/-- `.map(|(p, e)| Ok((p, f(e)?))).collect::<Result<_, _>>()?`. -/
def mapP {ε : Type} (f : NE → Out ε NE) : List (Nat × NE) → Out ε (List (Nat × NE))
  | [] => .ok []
  | (s, e) :: l => (f e).bind fun e => (mapP f l).bind fun l => .ok ((s, e) :: l)

/-- `src/chomp/ast/substitute.rs:271-402`: folding with `Reduce`.  Fuel bounds the recursion depth
(the Rust recursion is unbounded and can diverge). -/
def reduce : Nat → NE → Out RErr NE
  | 0, _ => .oof
  | n + 1, e =>
    match e with
    | .eps i => .ok (.eps i)
    | .lit i s => .ok (.lit i s)
    | .cat i f r =>
      (reduce n f).bind fun f => (mapP (reduce n) r).bind fun r => .ok (.cat i f r)
    | .alt i f r =>
      (reduce n f).bind fun f => (mapP (reduce n) r).bind fun r => .ok (.alt i f r)
    | .fix i b =>
      (reduce n b).bind fun b =>
        match b with
        | .lam j a c => (reduce n c).bind fun c => .ok (.fix i (.lam j a c))
        | b => .ok (.fix i b)
    | .var i k => .ok (.var i k)
    | .call i on args =>
      (reduce n on).bind fun on =>
        match on with
        | .lam j params body =>
          if params.length ≠ args.length then .err (.wrongArgCount (.lam j params body) args i.span)
          else
            (Out.ofOption (applyArgs body params args)).bind fun out =>
            (reduce n out).bind fun out =>
              .ok (out.setInfo ⟨Name.mergeAll [i.name, j.name, out.info.name], i.span⟩)
        | on => .err (.callNotAFunction on i.span)
    | .lam i a b => .ok (.lam i a b)
    | .letE i _ bound body =>
      (Out.ofOption (body.substitute 0 bound)).bind fun out =>
      (reduce n out).bind fun out =>
        .ok (out.setInfo ⟨Name.merge out.info.name i.name, i.span⟩)

end Chomp
