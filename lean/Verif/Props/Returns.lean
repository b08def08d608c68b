import Verif.Ast.Uses
import Verif.Props.Driver
import Verif.Grammars.AutoReduced
import Verif.Grammars.JsonToks
import Verif.Grammars.ArithToks

/-!
# C21: when reduction returns

Reduction does not return on every program.  It does on every program in which no parameter is called,
and it yields a result exactly if every expression can be used the way it is.
-/

namespace Chomp

theorem returns_reduce {e : NE} (h : Returns e.erase) : ∃ n, (∃ r, reduce n e = .ok r) ∨ ∃ x, reduce n e = .err x := by
  obtain ⟨n, hn⟩ := h
  refine ⟨n, ?_⟩
  cases hr : reduce n e with
  | ok r => exact .inl ⟨r, rfl⟩
  | err x => exact .inr ⟨x, rfl⟩
  | panic => exact absurd hr (C16_reduce_no_panic n e)
  | oof => exact absurd ((reduce_oof_iff n e).1 hr) hn

/-- **C21** (the part that holds, with a syntactic criterion). Reduction returns, with a result or an
error, on every program in which no parameter of a function is called.  Missing: programs that call
parameters, for which the claim is false. -/
theorem C21_first_order_returns_partial (e : NE) (h : e.erase.firstOrder [] = true) :
    ∃ n, (∃ r, reduce n e = .ok r) ∨ ∃ x, reduce n e = .err x :=
  returns_reduce (firstOrder_returns _ h)

/-- **C21** (compilation). The whole compiler ends on such programs. -/
theorem C21_first_order_compiles_partial (cas : Casing) (s : Stmt)
    (h : ∀ e c, convStmt s [] = some (.ok e, c) → e.erase.firstOrder [] = true) :
    ∃ N, ∀ fuel, N ≤ fuel → compile cas fuel s ≠ .oof := by
  have := backEnd_ends cas (convStmt s []) (fun e c he => by
    obtain ⟨n, hn⟩ := C21_first_order_returns_partial e (h e c he)
    refine ⟨n, ?_⟩
    rcases hn with ⟨r, hn⟩ | ⟨x, hn⟩ <;> rw [hn] <;> simp)
  exact this

/-- **C21** (exactly). Reduction turns a program into a result if and only if the program can be used as a
grammar: each function is given arguments that can be used in all the ways its body uses its parameters,
and nothing else is called.  Missing from the full claim: the programs that cannot be used so end with
an error or not at all. -/
theorem C21_reduces_iff_usable_partial (e : NE) : (∃ n r, reduce n e = .ok r) ↔ Usable gramUses e.erase .gram := by
  rw [← reduces_iff_usable]
  constructor
  · rintro ⟨n, r, hr⟩
    have := erase_reduce n e
    rw [hr] at this
    exact ⟨n, _, this.symm⟩
  · rintro ⟨n, v, hv⟩
    have := erase_reduce n e
    rw [hv] at this
    cases hr : reduce n e with
    | ok r => exact ⟨n, r, hr⟩
    | _ => rw [hr] at this; cases this

/-- The program of C21 calls a parameter, and cannot be used as a grammar. -/
theorem C21_omega_not_usable : omegaProg.erase.firstOrder [] = false ∧ ¬ Usable gramUses omegaProg.erase .gram := by
  refine ⟨by decide +kernel, fun h => ?_⟩
  obtain ⟨n, r, hr⟩ := (C21_reduces_iff_usable_partial _).2 h
  rw [C21_reduction_can_diverge n] at hr
  cases hr

set_option maxRecDepth 100000 in
/-- **C21** (the grammars of the repository). The benchmark grammars call no parameter; the grammar of
autonibble does (it counts with Church numerals) and can be used as a grammar nevertheless. -/
theorem C21_repository_grammars :
    (convProgram arithToks).map (fun e => e.erase.firstOrder []) = some true ∧
    (convProgram jsonToks).map (fun e => e.erase.firstOrder []) = some true ∧
    (convProgram autoToks).map (fun e => e.erase.firstOrder []) = some false ∧
    ∃ e, convProgram autoToks = some e ∧ Usable gramUses e.erase .gram :=
  ⟨by decide +kernel, by decide +kernel, by rw [auto_converted]; decide +kernel, auto0, auto_converted,
    (C21_reduces_iff_usable_partial _).1 ⟨_, _, auto_reduced⟩⟩

/-! ## Examples -/

private def ri : Info := ⟨none, 0⟩
private def rnm (s : String) : Name := .newVariable (.spanless s)

/-- `let sep x = /y/ x . (y | _); let bad = sep sep; sep "a" "b" . bad`: the function returns a function
which is called too; it is also passed to itself, without being called there. -/
def exFirstOrder : NE :=
  .letE ri (rnm "sep")
    (.lam ri [rnm "x"] (.lam ri [rnm "y"] (.cat ri (.var ri 1) [(0, .alt ri (.var ri 0) [(0, .eps ri)])])))
    (.letE ri (rnm "bad") (.call ri (.var ri 0) [.var ri 0])
      (.cat ri (.call ri (.call ri (.var ri 1) [.lit ri ['a']]) [.lit ri ['b']]) [(0, .var ri 0)]))

example : exFirstOrder.erase.firstOrder [] = true := by decide +kernel

/-- `let id x = x; id "b" "c"`, with too many arguments: an error, not a divergence. -/
example : (Core.letE (.lam 1 (.var 0)) (.call (.var 0) [.lit ['b'], .lit ['c']])).firstOrder [] = true := by decide +kernel

/-- `let twice f x = f (f x); let opt x = x | _; twice opt "a"`: a parameter is called, which the
syntactic criterion does not allow but the exact one does. -/
def exTwice : NE :=
  .letE ri (rnm "twice") (.lam ri [rnm "f", rnm "x"] (.call ri (.var ri 1) [.call ri (.var ri 1) [.var ri 0]]))
    (.letE ri (rnm "opt") (.lam ri [rnm "x"] (.alt ri (.var ri 0) [(0, .eps ri)]))
      (.call ri (.var ri 1) [.var ri 0, .lit ri ['a']]))

example : exTwice.erase.firstOrder [] = false ∧ Usable gramUses exTwice.erase .gram := by
  refine ⟨by decide +kernel, (C21_reduces_iff_usable_partial _).1 ⟨20, ?_⟩⟩
  exact ⟨_, rfl⟩

end Chomp
