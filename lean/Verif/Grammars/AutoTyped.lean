import Verif.Grammars.AutoReduced

/-!
# The grammar of autonibble, typed

Type inference, evaluated by the kernel one fix point at a time (see `Reify.lean` and `Typed/Local.lean`).
-/

open Lean Meta

namespace Chomp

set_option maxHeartbeats 0 in
set_option maxRecDepth 100000 in
run_meta do
  let some e := convProgram autoToks | throwError "conversion failed"
  let .ok r := reduce 300 e | throwError "reduction failed"
  discard <| (inferStages r).run' { pre := "auto", fuel := 234 }

set_option maxHeartbeats 0 in
set_option maxRecDepth 100000 in
theorem auto_typed : inferTop 234 autoR ⟨[], []⟩ = (.ok autoTyped11_0, ⟨[], []⟩) :=
  autoKnown11_ok (_, autoTyped11_0) (List.mem_cons_self ..) ⟨[], []⟩ rfl

end Chomp
