import Verif.Model.LineSearch
import Verif.Model.Residuals
import Verif.Model.SchurSystem
import Mathlib.Algebra.BigOperators.Group.Finset.Basic

/-!
# Objective values and the KKT error

Model of the values that `Solve` computes after each step, `/repo/conex/cone_program.cc` 438-468: the
objective values `by` and `cx`, the duality gap `s_dot_x`, and the error `kkt_error`, which ends the
updates of the barrier parameter when it exceeds `kkt_error_tolerance` (line 325).
-/

namespace Verif.KktError

open Finset LineSearch

variable {R : Type} [Field R] [LinearOrder R]

/-- The vectors and inner products of the system of a constraint, as they are read by
`AssembleSchurComplementResiduals` (`/repo/conex/constraint_manager.h` 107-124). -/
def resid (s : Schur.Sys R) : Sup.Resid R := ⟨s.AW, s.AQc, s.wc, s.cQc⟩

/-- `by`, `/repo/conex/cone_program.cc` 441-442; `N` is the number of rows of `b` and `y`. -/
def byValue (N : Nat) (b y : Nat → R) (k cs : R) : R :=
  (∑ u ∈ range N, b u * y u) * 1 / (k * cs)

/-- `cx`, `/repo/conex/cone_program.cc` 447-452. -/
def cxValue (N : Nat) (s : Sup.Resid R) (y : Nat → R) (k bs cs : R) : R :=
  (2 * s.wc + ∑ u ∈ range N, s.AQc u * y u - k * s.cQc * cs) / (k * bs)

/-- `s_dot_x`, `/repo/conex/cone_program.cc` 438, 454-457. -/
def sDotX (sqrt : R → R) (rank : Nat) (normsqrd k bs cs : R) : R :=
  let mu := 1 / k * (1 / k)
  let d2 := sqrt |normsqrd|
  mu * (rank - d2 * d2) / (bs * cs)

/-- `kkt_error`, `/repo/conex/cone_program.cc` 466, for a program without quadratic costs; with quadratic
costs it keeps its value zero (line 463, 283).  A zero `s_dot_x` is taken as `+0`. -/
def kktError (cx bY sx : R) : Ext R := ediv |cx - bY - sx| sx

end Verif.KktError
