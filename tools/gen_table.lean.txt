import Verif.Grammars.Compiled
import Verif.Grammars.AutoToks
import Verif.Grammars.JsonToks
import Verif.Grammars.ArithToks
open Chomp
/-! Prints the tables of the grammars as Lean source (used once to write `Verif/Grammars/*Table.lean`; the
result is checked by the kernel there). -/
def lch (c : Char) : String :=
  if 32 ≤ c.toNat ∧ c.toNat < 127 ∧ c ≠ '\'' ∧ c ≠ '\\' then s!"'{c}'" else s!"Char.ofNat {c.toNat}"
def lnode : NodeF Nat → String
  | .eps => ".eps"
  | .lit s => s!".lit [{String.intercalate ", " (s.map lch)}]"
  | .cat l => s!".cat {l}"
  | .alt _ l => s!".alt [] {l}"
  | .alias a => s!".alias {a}"
  | .box a => s!".box {a}"
  | .bad => ".bad"
def out (nm src : String) (fuel : Nat) (ts : List Tok) : IO Unit := do
  match compileToks fuel ts with
  | none => IO.println "failed"
  | some (_, st) =>
    IO.println s!"/-- The types generated for the grammar in `{src}`: name, definition, names of the fields or variants. -/"
    IO.println s!"def {nm} : List (String × NodeF Nat × List String) := ["
    for (e, i) in st.data.zipIdx do
      let c := if i + 1 = st.data.length then "]" else ","
      IO.println s!"  /- {i} -/ ({reprStr e.name}, {lnode e.node}, {reprStr e.fields}){c}"
#eval out "arithTable" "chomp-bench/src/arith/nibble.rs" 60 arithToks
#eval IO.println "===="
#eval out "jsonTable" "chomp-bench/src/json/nibble.rs" 60 jsonToks
#eval IO.println "===="
#eval out "autoTable" "autonibble/src/lib.rs" 200 autoToks
