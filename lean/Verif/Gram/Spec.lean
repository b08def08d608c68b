import Verif.Typed.CharSet
import Verif.Typed.Model
import Verif.Ast.Core

/-!
# Specification layer: grammars, their languages, syntax trees and typing rules

Grammars are context-free expressions `ε | "s" | g₁ · … · gₙ | g₁ | … | gₙ | μ.g | i` with de Bruijn
indices.  Except for the operations on `Ty` used by the typing rules, nothing here mentions the code.
-/

namespace Chomp

/-- Grammars. -/
inductive Gram where
  | eps
  | lit (s : List Char)
  | cat (l : List Gram)
  | alt (l : List Gram)
  | fix (b : Gram)
  | var (k : Nat)
deriving Repr

/-- Induction principle for `Gram`. -/
theorem Gram.ind {P : Gram → Prop} (eps : P .eps) (lit : ∀ s, P (.lit s))
    (cat : ∀ l, (∀ e ∈ l, P e) → P (.cat l)) (alt : ∀ l, (∀ e ∈ l, P e) → P (.alt l))
    (fix : ∀ b, P b → P (.fix b)) (var : ∀ k, P (.var k)) (e : Gram) : P e :=
  Gram.rec (motive_1 := P) (motive_2 := fun l => ∀ e ∈ l, P e)
    eps lit cat alt fix var (by simp) (by
      intro h t hh ht e he
      rcases List.mem_cons.1 he with rfl | he
      · exact hh
      · exact ht e he) e

/-- Languages. -/
abbrev Lang := List Char → Prop

/-- The environment below a fix point. -/
def Lang.push (X : Lang) (ρ : Nat → Lang) : Nat → Lang
  | 0 => X
  | i + 1 => ρ i

mutual
/-- The language of a grammar, given languages for its free variables: `μ` is the least language
closed under the body. -/
def Gram.lang : Gram → (Nat → Lang) → Lang
  | .eps, _ => fun w => w = []
  | .lit s, _ => fun w => w = s
  | .cat l, ρ => Gram.langCat l ρ
  | .alt l, ρ => Gram.langAlt l ρ
  | .fix b, ρ => fun w => ∀ X : Lang, (∀ v, b.lang (X.push ρ) v → X v) → X w
  | .var k, ρ => ρ k
/-- Concatenation. -/
def Gram.langCat : List Gram → (Nat → Lang) → Lang
  | [], _ => fun w => w = []
  | g :: l, ρ => fun w => ∃ u v, w = u ++ v ∧ g.lang ρ u ∧ Gram.langCat l ρ v
/-- Union. -/
def Gram.langAlt : List Gram → (Nat → Lang) → Lang
  | [], _ => fun _ => False
  | g :: l, ρ => fun w => g.lang ρ w ∨ Gram.langAlt l ρ w
end

/-- The language of a closed grammar. -/
def Gram.language (g : Gram) : Lang := g.lang fun _ _ => False

/-- Syntax trees: a concatenation node has one subtree per part, an alternation node records the chosen
branch, and a variable node contains the tree of its fix point. -/
inductive Tree where
  | eps
  | lit (s : List Char)
  | cat (l : List Tree)
  | alt (k : Nat) (t : Tree)
  | box (t : Tree)
deriving Repr

mutual
/-- The text of a syntax tree. -/
def Tree.text : Tree → List Char
  | .eps => []
  | .lit s => s
  | .cat l => Tree.textL l
  | .alt _ t => t.text
  | .box t => t.text
def Tree.textL : List Tree → List Char
  | [] => []
  | t :: l => t.text ++ Tree.textL l
end

mutual
/-- `Der ρ g t`: `t` is a syntax tree of the grammar `g`; `ρ` lists the bodies of the enclosing fix
points, innermost first. -/
inductive Der : List Gram → Gram → Tree → Prop
  | eps (ρ : List Gram) : Der ρ .eps .eps
  | lit (ρ : List Gram) (s : List Char) : Der ρ (.lit s) (.lit s)
  | cat (ρ : List Gram) (l : List Gram) (ts : List Tree) : DerL ρ l ts → Der ρ (.cat l) (.cat ts)
  | alt (ρ : List Gram) (l : List Gram) (k : Nat) (g : Gram) (t : Tree) : l[k]? = some g → Der ρ g t →
      Der ρ (.alt l) (.alt k t)
  | fix (ρ : List Gram) (b : Gram) (t : Tree) : Der (b :: ρ) b t → Der ρ (.fix b) t
  | var (ρ : List Gram) (k : Nat) (b : Gram) (ρ' : List Gram) (t : Tree) : ρ.drop k = b :: ρ' →
      Der (b :: ρ') b t → Der ρ (.var k) (.box t)
/-- Trees of a list of grammars. -/
inductive DerL : List Gram → List Gram → List Tree → Prop
  | nil (ρ : List Gram) : DerL ρ [] []
  | cons (ρ : List Gram) (g : Gram) (l : List Gram) (t : Tree) (ts : List Tree) : Der ρ g t → DerL ρ l ts →
      DerL ρ (g :: l) (t :: ts)
end

mutual
/-- `HasTy Γ k g τ`: the declarative typing rules.  `Γ` lists the types of the variables, innermost
first; the innermost `k` variables are guarded: they may not be used before input has been consumed. -/
inductive HasTy : List Ty → Nat → Gram → Ty → Prop
  | eps (Γ : List Ty) (k : Nat) : HasTy Γ k .eps ⟨true, .empty, .empty⟩
  | lit (Γ : List Ty) (k : Nat) (s : List Char) : HasTy Γ k (.lit s) ⟨s.isEmpty, .ofStr s, .empty⟩
  | cat (Γ : List Ty) (k : Nat) (g : Gram) (l : List Gram) (τ σ : Ty) : HasTy Γ k g τ → τ.nullable = false →
      HasTyCat Γ τ l σ → HasTy Γ k (.cat (g :: l)) σ
  | alt (Γ : List Ty) (k : Nat) (g : Gram) (l : List Gram) (τ σ : Ty) : HasTy Γ k g τ →
      HasTyAlt Γ k τ l σ → HasTy Γ k (.alt (g :: l)) σ
  | fix (Γ : List Ty) (k : Nat) (b : Gram) (τ : Ty) : HasTy (τ :: Γ) (k + 1) b τ → HasTy Γ k (.fix b) τ
  | var (Γ : List Ty) (k i : Nat) (τ : Ty) : Γ[i]? = some τ → k ≤ i → HasTy Γ k (.var i) τ
/-- The parts of a concatenation after some input, of type `τ`, has been consumed: every variable may be
used, and no part may start with a character that could also continue what precedes it. -/
inductive HasTyCat : List Ty → Ty → List Gram → Ty → Prop
  | nil (Γ : List Ty) (τ : Ty) : HasTyCat Γ τ [] τ
  | cons (Γ : List Ty) (τ : Ty) (g : Gram) (l : List Gram) (σ υ : Ty) : HasTy Γ 0 g σ →
      (∀ c, c ∈ τ.flast → c ∉ σ.first) → HasTyCat Γ (τ.cat σ) l υ → HasTyCat Γ τ (g :: l) υ
/-- The branches of an alternation after branches of type `τ`: at most one is nullable and their first
sets are disjoint. -/
inductive HasTyAlt : List Ty → Nat → Ty → List Gram → Ty → Prop
  | nil (Γ : List Ty) (k : Nat) (τ : Ty) : HasTyAlt Γ k τ [] τ
  | cons (Γ : List Ty) (k : Nat) (τ : Ty) (g : Gram) (l : List Gram) (σ υ : Ty) : HasTy Γ k g σ →
      ¬ (τ.nullable = true ∧ σ.nullable = true) → (∀ c, c ∈ τ.first → c ∉ σ.first) →
      HasTyAlt Γ k (τ.alt σ) l υ → HasTyAlt Γ k τ (g :: l) υ
end

mutual
/-- The grammar an expression without calls, lets and stray lambdas stands for.  `u` decides which
numbers of parameters a lambda below a fix point may have. -/
def Core.gram (u : Nat → Bool) : Core → Option Gram
  | .eps => some .eps
  | .lit s => some (.lit s)
  | .cat l => (Core.gramL u l).map .cat
  | .alt l => (Core.gramL u l).map .alt
  | .fix (.lam n b) => if u n then (b.gram u).map .fix else none
  | .fix _ => none
  | .var k => some (.var k)
  | .call _ _ => none
  | .lam _ _ => none
  | .letE _ _ => none
def Core.gramL (u : Nat → Bool) : List Core → Option (List Gram)
  | [] => some []
  | e :: l => (e.gram u).bind fun g => (Core.gramL u l).map (g :: ·)
end

end Chomp
