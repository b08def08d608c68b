import Verif.Grammars.TestTexts
import Verif.Grammars.AutoCompiled

/-!
# The grammar of `tests/full/nibble/nibble_exp.nb`, reduced and typed

Evaluated by the kernel step by step (see `Reify.lean`).
-/

open Lean Meta

namespace Chomp

/-- Lexing, parsing and conversion of a text. -/
def convText (text : List Char) : Option NE :=
  match lex text with
  | .ok ts => convProgram ts
  | .error _ => none

set_option maxHeartbeats 0 in
set_option maxRecDepth 100000 in
run_meta do
  let some e := convText nibbleExpText | throwError "conversion failed"
  let r ← reduceStages "nexp" e 100
  let opt := mkApp (mkConst ``Option [.zero]) (mkConst ``NE)
  addEq "nexp_conv" opt (mkApp (mkConst ``convText) (mkConst ``nibbleExpText))
    (mkApp2 (mkConst ``Option.some [.zero]) (mkConst ``NE) (cst "nexp0"))
  discard <| (inferStages r).run' { pre := "nexp", fuel := 118 }

theorem nexp_converted : convText nibbleExpText = some nexp0 := nexp_conv

theorem nexp_reduced : reduce 118 nexp0 = .ok nexpR := nexp_reduce

set_option maxHeartbeats 0 in
set_option maxRecDepth 100000 in
theorem nexp_typed : inferTop 118 nexpR ⟨[], []⟩ = (.ok nexpTyped4_0, ⟨[], []⟩) :=
  nexpKnown4_ok (_, nexpTyped4_0) (List.mem_cons_self ..) ⟨[], []⟩ rfl

end Chomp
