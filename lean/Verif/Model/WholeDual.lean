import Verif.Model.WholeSolve

/-!
# Reading dual variables after a solve

Model of `CONEX_GetDualVariable` (`/repo/interfaces/conex.cc` 114-122) and of `Program::GetDualVariable`
(`/repo/conex/cone_program.h` 118-134) on the program that a solve leaves behind: the scale comes from its statistics.
-/

namespace Verif.Whole

open Dual

variable {R : Type} [Field R] [LinearOrder R]

/-- `stats->sqrt_inv_mu[stats->num_iter - 1] * stats->b_scaling()`, `/repo/conex/cone_program.h` 127-128: undefined
without statistics (a null pointer), and if one of the numbers was never written.  `num_iter` is positive once it is
set. -/
def dualScale (stats : Option (SolveLoop.Stats R)) : Outcome R := do
  let s ← SolveLoop.readVar stats
  let n ← SolveLoop.readVar s.numIter
  let k ← SolveLoop.readVar (s.sqrtInvMu.lookup (n - 1))
  let b ← SolveLoop.readVar s.bScale
  .ok (k * b)

/-- `CONEX_GetDualVariable` for constraint `i` and an array with `xr * xc` entries.  The statistics are read only if the
constraint exists and the program was not found infeasible. -/
def readDual (es : List (Entry R)) (prog : SolveLoop.Prog R) (i xr xc : Int) :
    Outcome (Option (List (Option R))) :=
  if prog.status.primalInf = true ∨ (Dual.find i 0 es).isNone then Dual.getDual es true 1 i xr xc
  else do
    let scale ← dualScale prog.stats
    Dual.getDual es false scale i xr xc

end Verif.Whole
