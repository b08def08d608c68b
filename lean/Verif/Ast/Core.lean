/-!
# Specification layer: expressions without names and spans

`Core` is the nameless λ-calculus with grammar constants that the AST stands for: names and spans are
dropped, lambdas only keep their number of parameters.  On it we define, in the textbook way,
parallel substitution, the β/let step relation, closedness and evaluation in an arbitrary
higher-order algebra.  Nothing here mentions the code.
-/

namespace Chomp

/-- Nameless expressions (de Bruijn indices; the last parameter of a lambda has index 0). -/
inductive Core where
  | eps
  | lit (s : List Char)
  | cat (l : List Core)
  | alt (l : List Core)
  | fix (b : Core)
  | var (k : Nat)
  | call (on : Core) (args : List Core)
  | lam (n : Nat) (b : Core)
  | letE (bound body : Core)
deriving Repr

/-- Induction principle for `Core`. -/
theorem Core.ind {P : Core → Prop} (eps : P .eps) (lit : ∀ s, P (.lit s))
    (cat : ∀ l, (∀ e ∈ l, P e) → P (.cat l)) (alt : ∀ l, (∀ e ∈ l, P e) → P (.alt l))
    (fix : ∀ b, P b → P (.fix b)) (var : ∀ k, P (.var k))
    (call : ∀ o a, P o → (∀ e ∈ a, P e) → P (.call o a)) (lam : ∀ n b, P b → P (.lam n b))
    (letE : ∀ b c, P b → P c → P (.letE b c)) (e : Core) : P e :=
  Core.rec (motive_1 := P) (motive_2 := fun l => ∀ e ∈ l, P e)
    eps lit cat alt fix var call lam letE (by simp) (by
      intro h t hh ht e he
      rcases List.mem_cons.1 he with rfl | he
      · exact hh
      · exact ht e he) e

/-- Extend a renaming below `n` binders. -/
def upr (n : Nat) (f : Nat → Nat) : Nat → Nat := fun i => if i < n then i else f (i - n) + n

mutual
/-- Rename free variables. -/
def Core.ren (f : Nat → Nat) : Core → Core
  | .eps => .eps
  | .lit s => .lit s
  | .cat l => .cat (Core.renL f l)
  | .alt l => .alt (Core.renL f l)
  | .fix b => .fix (b.ren f)
  | .var k => .var (f k)
  | .call o a => .call (o.ren f) (Core.renL f a)
  | .lam n b => .lam n (b.ren (upr n f))
  | .letE b c => .letE (b.ren f) (c.ren (upr 1 f))
def Core.renL (f : Nat → Nat) : List Core → List Core
  | [] => []
  | e :: l => e.ren f :: Core.renL f l
end

/-- Extend a substitution below `n` binders. -/
def up (n : Nat) (σ : Nat → Core) : Nat → Core :=
  fun i => if i < n then .var i else (σ (i - n)).ren (· + n)

mutual
/-- Parallel capture-avoiding substitution. -/
def Core.sub (σ : Nat → Core) : Core → Core
  | .eps => .eps
  | .lit s => .lit s
  | .cat l => .cat (Core.subL σ l)
  | .alt l => .alt (Core.subL σ l)
  | .fix b => .fix (b.sub σ)
  | .var k => σ k
  | .call o a => .call (o.sub σ) (Core.subL σ a)
  | .lam n b => .lam n (b.sub (up n σ))
  | .letE b c => .letE (b.sub σ) (c.sub (up 1 σ))
def Core.subL (σ : Nat → Core) : List Core → List Core
  | [] => []
  | e :: l => e.sub σ :: Core.subL σ l
end

/-- The substitution that replaces index `k` by `s` and closes the gap. -/
def inst (k : Nat) (s : Core) : Nat → Core :=
  fun i => if i < k then .var i else if i = k then s else .var (i - 1)

/-- The substitution that passes `args` by position to `args.length` binders: the last binder has
index 0. -/
def instArgs (args : List Core) : Nat → Core :=
  fun i => if i < args.length then args.getD (args.length - 1 - i) .eps else .var (i - args.length)

/-- One β or let contraction, anywhere in an expression. -/
inductive Core.Step : Core → Core → Prop
  | beta (n : Nat) (b : Core) (args : List Core) : args.length = n →
      Step (.call (.lam n b) args) (b.sub (instArgs args))
  | letE (b c : Core) : Step (.letE b c) (c.sub (inst 0 b))
  | cat (pre : List Core) (e e' : Core) (post : List Core) : Step e e' →
      Step (.cat (pre ++ e :: post)) (.cat (pre ++ e' :: post))
  | alt (pre : List Core) (e e' : Core) (post : List Core) : Step e e' →
      Step (.alt (pre ++ e :: post)) (.alt (pre ++ e' :: post))
  | fix (b b' : Core) : Step b b' → Step (.fix b) (.fix b')
  | callOn (o o' : Core) (args : List Core) : Step o o' → Step (.call o args) (.call o' args)
  | callArg (o : Core) (pre : List Core) (e e' : Core) (post : List Core) : Step e e' →
      Step (.call o (pre ++ e :: post)) (.call o (pre ++ e' :: post))
  | lam (n : Nat) (b b' : Core) : Step b b' → Step (.lam n b) (.lam n b')
  | letBound (b b' c : Core) : Step b b' → Step (.letE b c) (.letE b' c)
  | letBody (b c c' : Core) : Step c c' → Step (.letE b c) (.letE b c')

/-- Any number of contractions. -/
inductive Core.Steps : Core → Core → Prop
  | refl (e : Core) : Steps e e
  | tail {a b c : Core} : Steps a b → Core.Step b c → Steps a c

mutual
/-- All free variables are below `n`. -/
def Core.closed (n : Nat) : Core → Prop
  | .eps => True
  | .lit _ => True
  | .cat l => Core.closedL n l
  | .alt l => Core.closedL n l
  | .fix b => b.closed n
  | .var k => k < n
  | .call o a => o.closed n ∧ Core.closedL n a
  | .lam m b => b.closed (n + m)
  | .letE b c => b.closed n ∧ c.closed (n + 1)
def Core.closedL (n : Nat) : List Core → Prop
  | [] => True
  | e :: l => e.closed n ∧ Core.closedL n l
end

mutual
/-- No call and no let outside the bodies of lambdas; the body of a lambda directly below a fix point
counts as outside. -/
def Core.settled : Core → Prop
  | .eps => True
  | .lit _ => True
  | .cat l => Core.settledL l
  | .alt l => Core.settledL l
  | .fix (.lam _ b) => b.settled
  | .fix b => b.settled
  | .var _ => True
  | .call _ _ => False
  | .lam _ _ => True
  | .letE _ _ => False
def Core.settledL : List Core → Prop
  | [] => True
  | e :: l => e.settled ∧ Core.settledL l
end

/-- A higher-order algebra: a meaning for every construct, where binders are functions on meanings. -/
structure Alg (D : Type) where
  eps : D
  lit : List Char → D
  cat : List D → D
  alt : List D → D
  fix : D → D
  call : D → List D → D
  lam : (n : Nat) → ((Fin n → D) → D) → D
  letE : D → (D → D) → D

/-- The environment inside a binder of `n` parameters: the last parameter has index 0. -/
def bindArgs {D : Type} (n : Nat) (ds : Fin n → D) (ρ : Nat → D) : Nat → D :=
  fun i => if h : i < n then ds ⟨n - 1 - i, by omega⟩ else ρ (i - n)

mutual
/-- The meaning of an expression in an algebra, given the meanings of its free variables. -/
def Core.eval {D : Type} (A : Alg D) : Core → (Nat → D) → D
  | .eps, _ => A.eps
  | .lit s, _ => A.lit s
  | .cat l, ρ => A.cat (Core.evalL A l ρ)
  | .alt l, ρ => A.alt (Core.evalL A l ρ)
  | .fix b, ρ => A.fix (b.eval A ρ)
  | .var k, ρ => ρ k
  | .call o a, ρ => A.call (o.eval A ρ) (Core.evalL A a ρ)
  | .lam n b, ρ => A.lam n fun ds => b.eval A (bindArgs n ds ρ)
  | .letE b c, ρ => A.letE (b.eval A ρ) fun d => c.eval A (bindArgs 1 (fun _ => d) ρ)
def Core.evalL {D : Type} (A : Alg D) : List Core → (Nat → D) → List D
  | [], _ => []
  | e :: l, ρ => e.eval A ρ :: Core.evalL A l ρ
end

end Chomp
