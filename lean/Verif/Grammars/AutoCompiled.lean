import Verif.Grammars.AutoTyped
import Verif.Grammars.AutoTable

/-!
# The grammar of autonibble, compiled

The last stage, and the stages put together.
-/

namespace Chomp

/-- The table generated from a typed expression. -/
def genTable (fuel : Nat) (te : TE) : Option (List (String × NodeF Nat × List String)) :=
  match gen heckCasing te {} with
  | .ok (0, st) => match st.emitIds fuel 0 with
    | some (.ok _) => some st.table
    | _ => none
  | _ => none

set_option maxHeartbeats 0 in
set_option maxRecDepth 100000 in
theorem auto_simple : autoTyped11_0.simple = true := by decide +kernel

set_option maxHeartbeats 0 in
set_option maxRecDepth 100000 in
theorem auto_gen : genTable 234 autoTyped11_0 = some autoTable := by decide +kernel

theorem genTable_some {fuel : Nat} {te : TE} {tbl : List (String × NodeF Nat × List String)} (h : genTable fuel te = some tbl) :
    ∃ st out, gen heckCasing te {} = .ok (0, st) ∧ st.emitIds fuel 0 = some (.ok out) ∧ st.table = tbl := by
  unfold genTable at h
  split at h
  · rename_i st hg
    split at h
    · rename_i out he
      exact ⟨st, out, hg, he, Option.some.inj h⟩
    · cases h
  · cases h

theorem convProgram_some {ts : List Tok} {e : NE} (h : convProgram ts = some e) :
    ∃ s c, parseProgram ts = .ok s ∧ convStmt s [] = some (.ok e, c) := by
  unfold convProgram at h
  split at h
  · rename_i s hs
    split at h
    · rename_i e' c hc
      cases h
      exact ⟨s, c, hs, hc⟩
    · cases h
  · cases h

/-- The stages of the compiler put together. -/
theorem compiled_of_stages {fuel : Nat} {ts : List Tok} {e r : NE} {te : TE} {tbl : List (String × NodeF Nat × List String)}
    (h1 : convProgram ts = some e) (h2 : reduce fuel e = .ok r) (h3 : inferTop fuel r ⟨[], []⟩ = (.ok te, ⟨[], []⟩))
    (h4 : genTable fuel te = some tbl) (h5 : te.simple = true) :
    (compileToks fuel ts).map (fun p => (p.1.simple, p.2.table)) = some (true, tbl) := by
  obtain ⟨s, c, hs, hc⟩ := convProgram_some h1
  obtain ⟨st, out, hg, he, ht⟩ := genTable_some h4
  have : compile heckCasing fuel s = .ok te 0 st out := by
    unfold compile
    simp only [hc, h2, h3, hg, he]
  unfold compileToks
  simp only [hs, this, Option.map_some, h5, ht]

/-- The model of the compiler, run by the kernel on the tokens of the grammar, generates the table; the grammar has
no sharing conflict and its literals are ASCII but for their last characters. -/
theorem auto_compiled : (compileToks 234 autoToks).map (fun p => (p.1.simple, p.2.table)) = some (true, autoTable) :=
  compiled_of_stages auto_converted auto_reduced auto_typed auto_gen auto_simple

end Chomp
