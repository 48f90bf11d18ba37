import Verif.Model.IterStats
import Verif.Spec.Solve

/-!
# The history of a solve
-/

namespace Verif.IterStats.Spec

open SolveLoop

variable {R : Type}

/-- The barrier parameters (as `1/√μ`) of the iterations of a run that computed a direction, most
recent first. -/
def parametersRev : List (Ev R) → List R
  | [] => []
  | .direction _ _ _ k :: t => k :: parametersRev t
  | _ :: t => parametersRev t

/-- The same, in order of the iterations. -/
def parameters (t : List (Ev R)) : List R := (parametersRev t).reverse

end Verif.IterStats.Spec
