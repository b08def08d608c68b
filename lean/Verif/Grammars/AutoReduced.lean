import Verif.Grammars.Reify
import Verif.Grammars.AutoToks

/-!
# The grammar of autonibble, reduced

The stages up to the reduction, evaluated by the kernel one substitution at a time (see `Reify.lean`).
-/

open Lean Meta

namespace Chomp

/-- Parsing and conversion (`chomp-macro/src/lib.rs:18-32`). -/
def convProgram (ts : List Tok) : Option NE :=
  match parseProgram ts with
  | .ok s => match convStmt s [] with
    | some (.ok e, _) => some e
    | _ => none
  | _ => none

set_option maxHeartbeats 0 in
set_option maxRecDepth 100000 in
run_meta do
  let some e := convProgram autoToks | throwError "conversion failed"
  discard <| reduceStages "auto" e 200
  let opt := mkApp (mkConst ``Option [.zero]) (mkConst ``NE)
  addEq "auto_conv" opt (mkApp (mkConst ``convProgram) (mkConst ``autoToks))
    (mkApp2 (mkConst ``Option.some [.zero]) (mkConst ``NE) (cst "auto0"))

/-- The conversion yields the first expression. -/
theorem auto_converted : convProgram autoToks = some auto0 := auto_conv

/-- The reduction yields `autoR`. -/
theorem auto_reduced : reduce 234 auto0 = .ok autoR := auto_reduce

end Chomp
