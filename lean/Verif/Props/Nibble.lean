import Verif.Nibble.StmtLemmas
import Verif.Props.Ast

/-!
# C10–C13: conversion of nibble programs

The specification is `Verif/Nibble/Spec.lean`: `flatStmt`/`flatExpr` read a syntax tree as a named
expression (`none` if some concatenation, alternation or call in it has no elements, which the nibble
parser never produces), `NCore.free` lists the undeclared identifiers in source order, and
`NCore.eval` is lexically scoped evaluation.
-/

namespace Chomp

private def idn (s : String) (sp : Nat) : Ident := ⟨false, s, sp⟩
private def tm (t : Term) : Alt := .mk 0 [(.mk 0 (.mk 0 [(.mk 0 [t], 0)]) none, 0)]
private def app (f x : Term) : Alt := .mk 0 [(.mk 0 (.mk 0 [(.mk 0 [f, x], 0)]) none, 0)]

/-- `let f x = x . y; match f "a";`: `y` is undeclared. -/
def exUndeclared : Stmt :=
  .letS 1 (idn "f" 2) [idn "x" 3]
    (.alt (.mk 0 [(.mk 0 (.mk 0 [(.mk 0 [.ident (idn "x" 4)], 5), (.mk 0 [.ident (idn "y" 6)], 0)]) none, 0)]))
    (.goal 7 (.alt (app (.ident (idn "f" 8)) (.lit 9 ['a']))))

/-- `let x = "a"; let x = x . x; match (/x/ x) x;`: shadowing throughout. -/
def exShadow : Stmt :=
  .letS 1 (idn "x" 2) [] (.alt (tm (.lit 3 ['a'])))
    (.letS 4 (idn "x" 5) []
      (.alt (.mk 0 [(.mk 0 (.mk 0 [(.mk 0 [.ident (idn "x" 6)], 7), (.mk 0 [.ident (idn "x" 8)], 0)]) none, 0)]))
      (.goal 9 (.alt (app (.parens (.lam 10 [idn "x" 11] (tm (.ident (idn "x" 12))))) (.ident (idn "x" 13))))))

/-- The program `let w x = x x; match w w;`. -/
def exOmega : Stmt :=
  .letS 0 (idn "w" 1) [idn "x" 2] (.alt (app (.ident (idn "x" 3)) (.ident (idn "x" 4))))
    (.goal 0 (.alt (app (.ident (idn "w" 5)) (.ident (idn "w" 6)))))

/-- **C10.** Converting a complete program never panics, and succeeds exactly if the program reads as
a named expression in which every identifier is declared. -/
theorem C10_convert_succeeds_iff (s : Stmt) :
    (∃ r c, convStmt s [] = some (r, c)) ∧
    ((∃ e c, convStmt s [] = some (.ok e, c)) ↔ ∃ n, flatStmt s = some n ∧ n.free [] = []) := by
  have h := conv_stmt s []
  unfold GoodStmt at h
  cases hf : flatStmt s with
  | none =>
    rw [hf] at h
    obtain ⟨e, k, h⟩ := h
    simp [h]
  | some n =>
    rw [hf] at h
    simp only at h
    cases hn : n.free [] with
    | nil => rw [hn] at h; obtain ⟨ne, h, _⟩ := h; simp [h, hn]
    | cons i l => rw [hn] at h; obtain ⟨k, h⟩ := h; simp [h, hn]

example : ∃ n, flatStmt exShadow = some n ∧ n.free [] = [] := by
  refine ⟨_, rfl, ?_⟩; decide
example : ∃ n, flatStmt exUndeclared = some n ∧ (n.free []).map (·.span) = [6] := by
  refine ⟨_, rfl, ?_⟩; decide

/-- **C10.** The error names the first undeclared identifier in source order. -/
theorem C10_convert_error (s : Stmt) (n : NCore) (i : Ident) (l : List Ident)
    (h1 : flatStmt s = some n) (h2 : n.free [] = i :: l) :
    ∃ c, convStmt s [] = some (.error (.undeclaredName (.newVariable i.content)), c) := by
  have h := conv_stmt s []
  unfold GoodStmt at h
  rw [h1] at h
  simp only [h2] at h
  obtain ⟨k, h⟩ := h
  exact ⟨_, h⟩

/-- **C10.** The same for expressions in an arbitrary context. -/
theorem C10_convert_expression (e : Expr) (c : Ctx) (n : NCore) (h1 : flatExpr e = some n) :
    (n.free c = [] → ∃ r, convExpr e c = some (.ok r, c)) ∧
    (∀ i l, n.free c = i :: l → convExpr e c = some (.error (.undeclaredName (.newVariable i.content)), c)) := by
  have h := conv_expr e c
  unfold Good at h
  rw [h1] at h
  simp only at h
  constructor
  · intro h2; rw [h2] at h; obtain ⟨ne, h, _⟩ := h; exact ⟨ne, h⟩
  · intro i l h2; rw [h2] at h; exact h

example : convStmt exUndeclared [] = some (.error (.undeclaredName (.newVariable (.spanned false "y" 6))), []) := rfl

/-- **C11.** An identifier is looked up to index `k` exactly if the binding `k` steps from the
innermost has its name and no binding further in does. -/
theorem C11_lookup_innermost (c : Ctx) (i : Ident) (k : Nat) :
    (∃ e, convIdent i c = some (.ok e, c) ∧ e.erase = .var k) ↔
      (∃ m, c.reverse[k]? = some m ∧ m.eqv i.content = true) ∧
      ∀ j < k, ∀ m, c.reverse[j]? = some m → m.eqv i.content = false := by
  rw [← findIdx_some]
  have hl : c.lookup (.newVariable i.content) = findIdx (fun m => m.eqv i.content) c.reverse := rfl
  rw [← hl]
  cases h : c.lookup (.newVariable i.content) with
  | none => simp [convIdent, h]
  | some m => simp [convIdent, h, NE.erase]

example : (∃ m, ([.spanned false "x" 1, .spanned false "y" 2, .spanned false "x" 3] : Ctx).reverse[0]? = some m ∧
    m.eqv (.spanned false "x" 9) = true) := ⟨_, rfl, by decide⟩

/-- **C11.** The meaning of a converted program, in every higher-order algebra, is that of the named
program under lexical scoping, where an identifier has the value of its innermost binding. -/
theorem C11_program_meaning (s : Stmt) (n : NCore) (h : flatStmt s = some n)
    (e : NE) (c : Ctx) (hc : convStmt s [] = some (.ok e, c)) {D : Type} (A : Alg D) (dflt : D) :
    e.erase.eval A (fun _ => dflt) = n.eval A dflt [] := by
  have g := conv_stmt s []
  unfold GoodStmt at g
  rw [h] at g
  simp only at g
  cases hn : n.free [] with
  | cons i l => rw [hn] at g; obtain ⟨k, g⟩ := g; rw [g] at hc; cases hc
  | nil =>
    rw [hn] at g
    obtain ⟨ne, g1, g2⟩ := g
    rw [g1] at hc
    cases hc
    rw [g2]
    exact core_eval A dflt n [] [] _ hn rfl (by simp)

/-- **C11.** The same for an expression converted in a context, whose bindings have arbitrary
meanings (`env` lists them innermost first). -/
theorem C11_expression_meaning (x : Expr) (n : NCore) (h : flatExpr x = some n) (c : Ctx)
    (e : NE) (hc : convExpr x c = some (.ok e, c)) {D : Type} (A : Alg D) (dflt : D)
    (env : List (Content × D)) (henv : env.map (·.1) = c.reverse) :
    e.erase.eval A (fun i => (env[i]?.map (·.2)).getD dflt) = n.eval A dflt env := by
  have g := conv_expr x c
  unfold Good at g
  rw [h] at g
  simp only at g
  cases hn : n.free c with
  | cons i l => rw [hn] at g; rw [g] at hc; cases hc
  | nil =>
    rw [hn] at g
    obtain ⟨ne, g1, g2⟩ := g
    rw [g1] at hc
    cases hc
    rw [g2]
    refine core_eval A dflt n c env _ hn henv ?_
    intro i x hx
    simp [hx]

/-- The shadowing example: `x` in the goal is the second let, inside which `x` is the first. -/
example : ∃ e c, convStmt exShadow [] = some (.ok e, c) ∧
    e.erase = .letE (.lit ['a']) (.letE (.cat [.var 0, .var 0]) (.call (.lam 1 (.var 0)) [.var 0])) :=
  ⟨_, _, rfl, rfl⟩

/-- **C12.** An expression converted in a context of `n` bindings only refers to those. -/
theorem C12_expression_closed (x : Expr) (c c' : Ctx) (e : NE)
    (hc : convExpr x c = some (.ok e, c')) : e.erase.closed c.length := by
  have g := conv_expr x c
  unfold Good at g
  cases h : flatExpr x with
  | none => rw [h] at g; obtain ⟨y, g⟩ := g; rw [g] at hc; cases hc
  | some n =>
    rw [h] at g
    simp only at g
    cases hn : n.free c with
    | cons i l => rw [hn] at g; rw [g] at hc; cases hc
    | nil =>
      rw [hn] at g
      obtain ⟨ne, g1, g2⟩ := g
      rw [g1] at hc
      cases hc
      rw [g2]
      exact core_closed n c hn

/-- **C12.** The expression of a complete program is closed. -/
theorem C12_program_closed (s : Stmt) (c : Ctx) (e : NE)
    (hc : convStmt s [] = some (.ok e, c)) : e.erase.closed 0 := by
  have g := conv_stmt s []
  unfold GoodStmt at g
  cases h : flatStmt s with
  | none => rw [h] at g; obtain ⟨y, k, g⟩ := g; rw [g] at hc; cases hc
  | some n =>
    rw [h] at g
    simp only at g
    cases hn : n.free [] with
    | cons i l => rw [hn] at g; obtain ⟨k, g⟩ := g; rw [g] at hc; cases hc
    | nil =>
      rw [hn] at g
      obtain ⟨ne, g1, g2⟩ := g
      rw [g1] at hc
      cases hc
      rw [g2]
      exact core_closed n [] hn

example : ∃ e c, convStmt exShadow [] = some (.ok e, c) := ⟨_, _, rfl⟩

/-- **C13.** Converting an expression leaves the context as it was, on success and on failure. -/
theorem C13_expression_restores (x : Expr) (c : Ctx) : ∃ r, convExpr x c = some (r, c) := by
  have g := conv_expr x c
  unfold Good at g
  cases h : flatExpr x with
  | none => rw [h] at g; obtain ⟨y, g⟩ := g; exact ⟨_, g⟩
  | some n =>
    rw [h] at g
    simp only at g
    cases hn : n.free c with
    | cons i l => rw [hn] at g; exact ⟨_, g⟩
    | nil => rw [hn] at g; obtain ⟨ne, g, _⟩ := g; exact ⟨_, g⟩

/-- **C13.** Converting a program adds the names of the lets it passed, in order: all of them on
success. -/
theorem C13_program_lets (s : Stmt) (c : Ctx) :
    ∃ r k, convStmt s c = some (r, c ++ s.lets.take k) ∧ ∀ e, r = .ok e → s.lets.take k = s.lets := by
  have g := conv_stmt s c
  unfold GoodStmt at g
  cases h : flatStmt s with
  | none => rw [h] at g; obtain ⟨y, k, g⟩ := g; exact ⟨_, k, g, by simp⟩
  | some n =>
    rw [h] at g
    simp only at g
    cases hn : n.free c with
    | cons i l => rw [hn] at g; obtain ⟨k, g⟩ := g; exact ⟨_, k, g, by simp⟩
    | nil =>
      rw [hn] at g
      obtain ⟨ne, g, _⟩ := g
      exact ⟨.ok ne, s.lets.length, by simpa using g, by simp⟩

example : exShadow.lets = [.spanned false "x" 2, .spanned false "x" 5] := rfl
/-- A program that fails in its second statement has only passed the first. -/
example : ∃ r, convStmt (.letS 0 (idn "a" 1) [] (.alt (tm (.eps 0)))
    (.letS 0 (idn "b" 2) [] (.alt (tm (.ident (idn "z" 3)))) (.goal 0 (.alt (tm (.eps 0)))))) [] =
    some (.error r, [.spanned false "a" 1]) := ⟨_, rfl⟩

/-- **C21.** The diverging expression `omegaProg` is what the front end makes of
`let w x = x x; match w w;` (up to the spans of inner nodes). -/
theorem C21_omega_converts : ∃ e c, convStmt exOmega [] = some (.ok e, c) ∧ e.erase = omegaProg.erase :=
  ⟨_, _, rfl, rfl⟩

/-- **C21** is false end to end: a program the front end accepts and whose reduction never returns. -/
theorem C21_program_can_diverge :
    ∃ (s : Stmt) (e : NE) (c : Ctx), convStmt s [] = some (.ok e, c) ∧ ∀ n, reduce n e = .oof := by
  obtain ⟨e, c, h1, h2⟩ := C21_omega_converts
  refine ⟨exOmega, e, c, h1, fun n => ?_⟩
  rw [reduce_oof_iff, h2, ← reduce_oof_iff]
  exact C21_reduction_can_diverge n

end Chomp
