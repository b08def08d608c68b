import Lean
import Verif.Grammars.Compiled
import Verif.Typed.Local

/-!
# Evaluating the compiler step by step

The grammar of autonibble is too large for the kernel to evaluate the model of the compiler on it in one go.  The
functions here run the stages of the compiler in Lean, and add each intermediate result as a definition together
with the equation saying that the stage yields it.  The equations are proved by reflexivity: the kernel evaluates
the stage and compares.  Nothing here is trusted: all definitions and equations go through the kernel (`addDecl`).
-/

open Lean Meta

namespace Chomp

deriving instance ToExpr for Kind
deriving instance ToExpr for Content
deriving instance ToExpr for Name
deriving instance ToExpr for Info

instance : Inhabited NE := ⟨.eps ⟨none, 0⟩⟩
instance : Inhabited Ty := ⟨.default⟩

/-- A constant of the namespace. -/
def cst (s : String) : Lean.Expr := mkConst (.str `Chomp s)

/-- The type of elements of `rest`. -/
def pairTy (a : Lean.Expr) : Lean.Expr := mkApp2 (mkConst ``Prod [.zero, .zero]) (mkConst ``Nat) a

/-- A list. -/
def listE (ty : Lean.Expr) : List Lean.Expr → Lean.Expr
  | [] => mkApp (mkConst ``List.nil [.zero]) ty
  | e :: l => mkApp3 (mkConst ``List.cons [.zero]) ty e (listE ty l)

/-- A pair of a number and something. -/
def pairE (ty : Lean.Expr) (s : Nat) (e : Lean.Expr) : Lean.Expr :=
  mkApp4 (mkConst ``Prod.mk [.zero, .zero]) (mkConst ``Nat) ty (toExpr s) e

mutual
/-- An expression as a term. -/
def neE : NE → Lean.Expr
  | .eps i => mkApp (mkConst ``NE.eps) (toExpr i)
  | .lit i s => mkApp2 (mkConst ``NE.lit) (toExpr i) (toExpr s)
  | .cat i f r => mkApp3 (mkConst ``NE.cat) (toExpr i) (neE f) (listE (pairTy (mkConst ``NE)) (neP r))
  | .alt i f r => mkApp3 (mkConst ``NE.alt) (toExpr i) (neE f) (listE (pairTy (mkConst ``NE)) (neP r))
  | .fix i b => mkApp2 (mkConst ``NE.fix) (toExpr i) (neE b)
  | .var i k => mkApp2 (mkConst ``NE.var) (toExpr i) (toExpr k)
  | .call i o a => mkApp3 (mkConst ``NE.call) (toExpr i) (neE o) (listE (mkConst ``NE) (neL a))
  | .lam i a b => mkApp3 (mkConst ``NE.lam) (toExpr i) (toExpr a) (neE b)
  | .letE i x b c => mkApp4 (mkConst ``NE.letE) (toExpr i) (toExpr x) (neE b) (neE c)
def neP : List (Nat × NE) → List Lean.Expr
  | [] => []
  | (s, e) :: l => pairE (mkConst ``NE) s (neE e) :: neP l
def neL : List NE → List Lean.Expr
  | [] => []
  | e :: l => neE e :: neL l
end

/-- Define a constant. -/
def addVal (name : String) (ty v : Lean.Expr) : CoreM Unit :=
  addDecl (.defnDecl { name := .str `Chomp name, levelParams := [], type := ty, value := v, hints := .abbrev, safety := .safe })

/-- Add a theorem. -/
def addThm (name : String) (ty v : Lean.Expr) : CoreM Unit :=
  addDecl (.thmDecl { name := .str `Chomp name, levelParams := [], type := ty, value := v })

/-- An equation. -/
def eqE (ty lhs rhs : Lean.Expr) : Lean.Expr := mkApp3 (mkConst ``Eq [.succ .zero]) ty lhs rhs

/-- Reflexivity. -/
def reflE (ty a : Lean.Expr) : Lean.Expr := mkApp2 (mkConst ``Eq.refl [.succ .zero]) ty a

/-- Add an equation both sides of which the kernel evaluates to the same value. -/
def addEq (name : String) (ty lhs rhs : Lean.Expr) : CoreM Unit := addThm name (eqE ty lhs rhs) (reflE ty rhs)

/-! ## Reduction -/

/-- The first step of the reduction of a let statement without name and span. -/
def nextE : NE → Option NE
  | .letE ⟨none, 0⟩ _ b c => c.substitute 0 b
  | _ => none

theorem reduce_let_step {n : Nat} {e e' r : NE} (h : nextE e = some e') (hr : reduce n e' = .ok r) (hs : r.info.span = 0) :
    reduce (n + 1) e = .ok r := by
  unfold nextE at h
  split at h
  · simp only [reduce, h, Out.ofOption, Out.bind, hr]
    have : (⟨Name.merge r.info.name none, 0⟩ : Info) = r.info := by
      cases hi : r.info with
      | mk nm sp =>
        rw [hi] at hs
        simp only at hs
        subst hs
        cases nm <;> rfl
    rw [this]
    cases r <;> rfl
  · cases h

/-- Run the reduction of nested let statements: definitions `<pre>0`, `<pre>1`, ... of the successive expressions,
equations `<pre>1_eq`, ..., the reduced expression `<pre>R`, `<pre>R_eq` for the reduction of the last one with the given fuel
and finally `<pre>_reduce`, the reduction of the first. -/
partial def reduceStages (pre : String) (e : NE) (fuel : Nat) : MetaM NE := do
  let ne := mkConst ``NE
  let opt := mkApp (mkConst ``Option [.zero]) ne
  let out := mkApp2 (mkConst ``Out) (mkConst ``RErr) ne
  addVal s!"{pre}0" ne (neE e)
  let rec go (e : NE) (i : Nat) : MetaM (NE × Nat) := do
    match nextE e with
    | none => return (e, i)
    | some e' =>
      addVal s!"{pre}{i + 1}" ne (neE e')
      addEq s!"{pre}{i + 1}_eq" opt (mkApp (mkConst ``nextE) (cst s!"{pre}{i}"))
        (mkApp2 (mkConst ``Option.some [.zero]) ne (cst s!"{pre}{i + 1}"))
      go e' (i + 1)
  let (e', k) ← go e 0
  let .ok r := reduce fuel e' | throwError "reduction failed"
  addVal s!"{pre}R" ne (neE r)
  let ok := mkApp3 (mkConst ``Out.ok) (mkConst ``RErr) ne (cst s!"{pre}R")
  let red (n : Nat) (e : Lean.Expr) := eqE out (mkApp2 (mkConst ``reduce) (mkRawNatLit n) e) ok
  addThm s!"{pre}R_eq" (red fuel (cst s!"{pre}{k}")) (reflE out ok)
  let mut prf := cst s!"{pre}R_eq"
  for j in [0:k] do
    let i := k - 1 - j
    prf := mkAppN (mkConst ``reduce_let_step) #[mkRawNatLit (fuel + j), cst s!"{pre}{i}", cst s!"{pre}{i + 1}", cst s!"{pre}R",
      cst s!"{pre}{i + 1}_eq", prf, reflE (mkConst ``Nat) (mkRawNatLit 0)]
  addThm s!"{pre}_reduce" (red (fuel + k) (cst s!"{pre}0")) prf
  return r

/-! ## Inference -/

/-- The state of `inferStages`. -/
structure RState where
  pre : String
  fuel : Nat
  sets : Array (List Char) := #[]
  tys : Array Ty := #[]
  /-- fix points, by their terms -/
  ids : Std.HashMap Lean.Expr Nat := {}
  fixes : Array NE := #[]
  /-- results for each fix point: types of the free variables, typing as a term and its type -/
  known : Array (Array (List (Nat × Ty) × Lean.Expr × Ty)) := #[]

abbrev RM := StateT RState MetaM

/-- A set of characters as a term. -/
def setE (s : CharSet) : RM Lean.Expr := do
  let st ← get
  let i ← match st.sets.idxOf? s.chars with
    | some i => pure i
    | none =>
      let l := toExpr s.chars
      let p := mkApp (mkApp (mkConst ``List.Pairwise [.zero]) (mkConst ``Char))
        (Lean.mkLambda `a .default (mkConst ``Char) (Lean.mkLambda `b .default (mkConst ``Char)
          (mkApp4 (mkConst ``LT.lt [.zero]) (mkConst ``Char) (mkConst ``Char.instLT) (.bvar 1) (.bvar 0))))
      let p := mkApp p l
      let prf ← mkDecideProof p
      let name := s!"{st.pre}Set{st.sets.size}"
      addVal name (mkConst ``CharSet) (mkApp2 (mkConst ``CharSet.mk) l prf)
      modify fun st => { st with sets := st.sets.push s.chars }
      pure st.sets.size
  return cst s!"{st.pre}Set{i}"

/-- A type as a term. -/
def tyE (t : Ty) : RM Lean.Expr := do
  let st ← get
  match st.tys.idxOf? t with
  | some i => return cst s!"{st.pre}Ty{i}"
  | none =>
    let a ← setE t.first
    let b ← setE t.flast
    let st ← get
    let name := s!"{st.pre}Ty{st.tys.size}"
    addVal name (mkConst ``Ty) (mkApp3 (mkConst ``Ty.mk) (toExpr t.nullable) a b)
    set { st with tys := st.tys.push t }
    return cst name

/-- What is inside fix points that are right inside one another. -/
def belowFixes : NE → NE
  | .fix _ (.lam _ _ b) => belowFixes b
  | e => e

/-- Collect the fix points, innermost first.  A fix point that is the body of another is not collected: it gets its name from the
outer one; nor is one that starts with a variable that must not be guarded. -/
partial def collect (e : NE) : RM Unit := do
  match e with
  | .cat _ f r | .alt _ f r => collect f; r.forM fun p => collect p.2
  | .fix _ (.lam _ _ b) =>
    if (← get).ids.contains (neE e) then return
    collect (belowFixes b)
    unless e.calm none do return
    modify fun s => { s with ids := s.ids.insert (neE e) s.fixes.size, fixes := s.fixes.push e, known := s.known.push #[] }
  | _ => return

/-- The type of a free variable. -/
def TCtx.look (c : TCtx) (k : Nat) : RM Ty := match c.vars.reverse[k]? with
  | some t => pure t
  | none => throwError "free variable"

mutual
/-- Inference with a memory of the results for fix points: the typing as a term, and the type. -/
partial def natInfer (nm : Option Name) (e : NE) (c : TCtx) : RM (Lean.Expr × Ty) := do
  let nmE := toExpr nm
  let te := mkConst ``TE
  match e with
  | .eps _ => return (mkApp (mkConst ``TE.eps) nmE, .eps)
  | .lit _ s => return (mkApp2 (mkConst ``TE.lit) nmE (toExpr s), .ofStr s)
  | .var _ k =>
    let t ← c.look k
    return (mkApp3 (mkConst ``TE.var) nmE (toExpr k) (← tyE t), t)
  | .cat _ f r =>
    let (x, t) ← natInfer f.info.name f c
    let mut ty := t
    let mut xs := #[x]
    for (_, e) in r do
      let (x, t) ← natInfer e.info.name e c
      ty := ty.cat t
      xs := xs.push x
    return (mkApp3 (mkConst ``TE.cat) nmE (← tyE ty) (listE te xs.toList), ty)
  | .alt _ f r =>
    let (x, t) ← natInfer f.info.name f c
    let mut ty := t
    let mut xs := #[x]
    for (_, e) in r do
      let (x, t) ← natInfer e.info.name e c
      ty := ty.alt t
      xs := xs.push x
    return (mkApp3 (mkConst ``TE.alt) nmE (← tyE ty) (listE te xs.toList), ty)
  | .fix i (.lam ..) =>
    let some id := (← get).ids[neE e]? | natBody nm e c
    let mut needs := #[]
    for k in e.fvs.eraseDups do needs := needs.push (k, ← c.look k)
    if let some k := (← get).known[id]!.findIdx? (fun p => p.1 == needs.toList) then
      let st ← get
      return (cst s!"{st.pre}Typed{id}_{k}", (st.known[id]![k]!).2.2)
    let (res, last) ← natBody i.name e c
    let st ← get
    let k := st.known[id]!.size
    set { st with known := st.known.modify id (·.push (needs.toList, res, last)) }
    return (cst s!"{st.pre}Typed{id}_{k}", last)
  | _ => throwError "unexpected expression"
/-- The same without memory for the fix points at the top. -/
partial def natBody (nm : Option Name) (e : NE) (c : TCtx) : RM (Lean.Expr × Ty) := do
  match e with
  | .fix _ (.lam j _ b) =>
    let mut last := Ty.default
    let mut res := (default : Lean.Expr)
    for _ in [0:20] do
      let (x, t) ← natBody (Name.mergeAll [j.name, b.info.name, nm]) b { c with vars := c.vars ++ [last] }
      res := x
      if t = last then break
      last := t
    return (mkApp2 (mkConst ``TE.fix) (toExpr nm) res, last)
  | _ => natInfer nm e c
end

mutual
/-- An expression as a term, with constants for the fix points inside it. -/
partial def shareE (e : NE) : RM Lean.Expr := do
  match e with
  | .cat i f r => return mkApp3 (mkConst ``NE.cat) (toExpr i) (← shareE f) (listE (pairTy (mkConst ``NE)) (← r.mapM fun p => return pairE (mkConst ``NE) p.1 (← shareE p.2)))
  | .alt i f r => return mkApp3 (mkConst ``NE.alt) (toExpr i) (← shareE f) (listE (pairTy (mkConst ``NE)) (← r.mapM fun p => return pairE (mkConst ``NE) p.1 (← shareE p.2)))
  | .fix .. =>
    let some id := (← get).ids[neE e]? | shareBody e
    return cst s!"{(← get).pre}Fix{id}"
  | e => return neE e
/-- The same for what is below a fix point. -/
partial def shareBody (e : NE) : RM Lean.Expr := do
  match e with
  | .fix i (.lam j args b) =>
    return mkApp2 (mkConst ``NE.fix) (toExpr i) (mkApp3 (mkConst ``NE.lam) (toExpr j) (toExpr args) (← shareBody b))
  | e => shareE e
end

mutual
/-- An expression with known results for the fix points inside it, as a term. -/
partial def nxE (e : NE) : RM Lean.Expr := do
  let nx := mkConst ``NX
  match e with
  | .eps i => return mkApp (mkConst ``NX.eps) (toExpr i)
  | .lit i s => return mkApp2 (mkConst ``NX.lit) (toExpr i) (toExpr s)
  | .var i k => return mkApp2 (mkConst ``NX.var) (toExpr i) (toExpr k)
  | .cat i f r => return mkApp3 (mkConst ``NX.cat) (toExpr i) (← nxE f) (listE (pairTy nx) (← r.mapM fun p => return pairE nx p.1 (← nxE p.2)))
  | .alt i f r => return mkApp3 (mkConst ``NX.alt) (toExpr i) (← nxE f) (listE (pairTy nx) (← r.mapM fun p => return pairE nx p.1 (← nxE p.2)))
  | .fix .. =>
    let some id := (← get).ids[neE e]? | nxBody e
    let pre := (← get).pre
    return mkApp2 (mkConst ``NX.done) (cst s!"{pre}Fix{id}") (cst s!"{pre}Known{id}")
  | _ => throwError "unexpected expression"
/-- The same for what is below a fix point. -/
partial def nxBody (e : NE) : RM Lean.Expr := do
  match e with
  | .fix i (.lam j args b) => return mkApp4 (mkConst ``NX.fix) (toExpr i) (toExpr j) (toExpr args) (← nxBody b)
  | e => nxE e
end

/-- The fix points right inside an expression, in order. -/
partial def inner (e : NE) : RM (List Nat) := do
  match e with
  | .cat _ f r | .alt _ f r => return (← inner f) ++ (← r.mapM fun p => inner p.2).flatten
  | .fix .. =>
    let some id := (← get).ids[neE e]? | inner (belowFixes e)
    return [id]
  | _ => return []

/-- The type of `needs`. -/
def needTy : Lean.Expr := pairTy (mkConst ``Ty)

/-- Types of variables as a term. -/
def needsE (l : List (Nat × Ty)) : RM Lean.Expr := do
  return listE needTy (← l.mapM fun p => return pairE (mkConst ``Ty) p.1 (← tyE p.2))

/-- A context with the given types of variables. -/
def needsCtx (l : List (Nat × Ty)) : RM Lean.Expr := do
  let n := l.foldl (fun n p => max n (p.1 + 1)) 0
  let vs ← (List.range n).mapM fun k => tyE ((l.lookup k).getD .default)
  return mkApp2 (mkConst ``TCtx.mk) (listE (mkConst ``Ty) vs.reverse) (listE (mkConst ``Nat) [])

/-- Infer the type of an expression: `<pre>Typed<k>_0` for the result and `<pre>Known<k>_ok` for the theorem, where `k` is
returned. -/
def inferStages (e : NE) : RM Nat := do
  collect e
  discard <| natInfer e.info.name e ⟨[], []⟩
  let st ← get
  let (pre, n) := (st.pre, mkRawNatLit st.fuel)
  let bool := mkConst ``Bool
  let tt := reflE bool (mkConst ``Bool.true)
  for id in [0:st.fixes.size] do
    let e := st.fixes[id]!
    let .fix i (.lam j args b) := e | throwError "not a fix point"
    let fixE := cst s!"{pre}Fix{id}"
    let xE := cst s!"{pre}Body{id}"
    addVal s!"{pre}Fix{id}" (mkConst ``NE) (mkApp2 (mkConst ``NE.fix) (toExpr i) (mkApp3 (mkConst ``NE.lam) (toExpr j) (toExpr args) (← shareBody b)))
    addVal s!"{pre}Body{id}" (mkConst ``NX) (mkApp4 (mkConst ``NX.fix) (toExpr i) (toExpr j) (toExpr args) (← nxBody b))
    let mut allKnown := mkConst ``True.intro
    let mut allTy := mkConst ``True
    for d in (← inner (belowFixes b)).reverse do
      let t := mkApp3 (mkConst ``KnownOk) n (cst s!"{pre}Fix{d}") (cst s!"{pre}Known{d}")
      allKnown := mkApp4 (mkConst ``And.intro) t allTy (cst s!"{pre}Known{d}_ok") allKnown
      allTy := mkApp2 (mkConst ``And) t allTy
    let nilP := mkApp (mkConst ``List.nil [.zero]) (mkApp2 (mkConst ``Prod [.zero, .zero]) (mkApp (mkConst ``List [.zero]) needTy) (mkConst ``TE))
    let mut tbl := nilP
    let mut prf := mkApp2 (mkConst ``knownOk_nil) n fixE
    for k' in [0:st.known[id]!.size] do
      let k := st.known[id]!.size - 1 - k'
      let (needs, te, _) := st.known[id]![k]!
      let teC := cst s!"{pre}Typed{id}_{k}"
      addVal s!"{pre}Typed{id}_{k}" (mkConst ``TE) te
      let nE ← needsE needs
      let cE ← needsCtx needs
      let nmE := toExpr i.name
      let infTy := mkApp2 (mkConst ``Prod [.zero, .zero]) (mkApp2 (mkConst ``Out) (mkConst ``TErr) (mkConst ``TE)) (mkConst ``TCtx)
      let resE := mkApp4 (mkConst ``Prod.mk [.zero, .zero]) (mkApp2 (mkConst ``Out) (mkConst ``TErr) (mkConst ``TE)) (mkConst ``TCtx)
        (mkApp3 (mkConst ``Out.ok) (mkConst ``TErr) (mkConst ``TE) teC) cE
      addThm s!"{pre}Typed{id}_{k}_eq" (eqE infTy (mkApp4 (mkConst ``inferX) n nmE xE cE) resE) (reflE infTy resE)
      let entry := mkAppN (mkConst ``known_entry) #[n, xE, fixE, teC, nE, cE, reflE (mkConst ``NE) fixE, tt, allKnown,
        reflE bool (mkConst ``Bool.false), tt, tt, tt, cst s!"{pre}Typed{id}_{k}_eq"]
      prf := mkAppN (mkConst ``knownOk_cons) #[n, fixE, nE, teC, tbl, entry, prf]
      tbl := mkApp3 (mkConst ``List.cons [.zero]) (mkApp2 (mkConst ``Prod [.zero, .zero]) (mkApp (mkConst ``List [.zero]) needTy) (mkConst ``TE))
        (mkApp4 (mkConst ``Prod.mk [.zero, .zero]) (mkApp (mkConst ``List [.zero]) needTy) (mkConst ``TE) nE teC) tbl
    addVal s!"{pre}Known{id}" (mkConst ``Known) tbl
    addThm s!"{pre}Known{id}_ok" (mkApp3 (mkConst ``KnownOk) n fixE (cst s!"{pre}Known{id}")) prf
  return st.fixes.size - 1

end Chomp
