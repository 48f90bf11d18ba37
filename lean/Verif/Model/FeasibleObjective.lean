import Verif.Model.Residuals
import Verif.Model.WholeSolve

/-!
# An objective for which the program is bounded

Model of `GetFeasibleObjective`, of the overload of `Solve` that takes an objective, and of the linear costs of a
program (`/repo/conex/cone_program.cc` 226-233, 535-552).  Timers are left out.
-/

namespace Verif.Feasible

open Dual Whole

variable {R : Type} [Field R] [LinearOrder R]

/-- A column of `.1` rows. -/
abbrev Column (R : Type) := Nat × (Nat → R)

/-- `GetFeasibleObjective`, `/repo/conex/cone_program.cc` 535-545.  `Initialize` (78-112) gets the default options, hence
is a cold start (`/repo/conex/cone_program.h` 19): all scaling points become identities and a new solver is
constructed.  `Assemble` (`/repo/conex/kkt_solver.cc` 133-162) computes the systems of the constraints, adds up the
matrix in the memory `mat`, and the vectors in elimination order. -/
def objective (v : Env R) (P : Program R) (mat : Sup.Store R) : Outcome (Column R) := do
  let kkt ← Sup.kktInit (P.es.map Entry.vars) P.duals
  let sys ← Iteration.schurAll v.sqrt (P.es.map fun e => ⟨e.vars, setIdentity e.item⟩) P.sys
  let _ ← Sup.assemble kkt (fun i => (Iteration.sysAt sys i).G) mat
  let r ← Sup.kktResiduals kkt P.N fun i => KktError.resid (Iteration.sysAt sys i)
  .ok (P.N, fun u => 1 / 2 * r.AW u)

/-- `AddLinearCost`, `/repo/conex/cone_program.cc` 226-231: the program and the returned value; a failed
`CONEX_DEMAND` returns 1, which is `true` as well. -/
def addLinearCost (P : Program R) (b : Column R) : Program R × Bool :=
  if P.m = b.1 then ({ P with cost := fun u => P.cost u + b.2 u }, true) else (P, true)

/-- `ClearLinearCosts`, `/repo/conex/cone_program.cc` 233. -/
def clearLinearCosts (P : Program R) : Program R := { P with cost := fun _ => 0 }

/-- The program that `Solve(b, prog, config, primal_variable)` passes on, `/repo/conex/cone_program.cc` 547-550. -/
def withObjective (P : Program R) (b : Column R) : Program R :=
  (addLinearCost (clearLinearCosts P) (b.1, fun u => -b.2 u)).1

/-- `Solve(b, prog, config, primal_variable)`, `/repo/conex/cone_program.cc` 547-552, on a cold start. -/
def solve (v : Env R) (l : Whole.Linear R) (P : Program R) (b : Column R) (cfg : SolveLoop.Config R)
    (status : SolveLoop.Status) (c : SolveLoop.Oracle R) : Outcome (Result R) :=
  Whole.solve v l (withObjective P b) cfg status c

end Verif.Feasible
