import Mathlib.Algebra.Group.Basic

/-!
# The linear system contributed by a constraint
-/

namespace Verif.Schur

/-- `WorkspaceSchurComplement`, `/repo/conex/newton_step.h` 51-105, with `residual_only_` false (the
case of the system of a constraint): `rows` is the number of rows and columns of `G` and of rows of
`AW` and `AQc`. -/
structure Sys (R : Type) where
  rows : Nat
  G : Nat → Nat → R
  AW : Nat → R
  AQc : Nat → R
  wc : R
  cQc : R

/-- `setZero`, `/repo/conex/newton_step.h` 80-88. -/
def Sys.setZero {R : Type} [Zero R] (s : Sys R) : Sys R :=
  { rows := s.rows, G := fun _ _ => 0, AW := fun _ => 0, AQc := fun _ => 0, wc := 0, cQc := 0 }

/-- Assignment to the first `m` entries of a vector, Eigen's `topRows(m) = z`. -/
def setTop {R : Type} (m : Nat) (z y : Nat → R) : Nat → R := fun i => if i < m then z i else y i

/-- Assignment to the leading block, Eigen's `topLeftCorner(m, k) = Z`. -/
def setTopLeft {R : Type} (m k : Nat) (Z Y : Nat → Nat → R) : Nat → Nat → R := fun i j =>
  if i < m ∧ j < k then Z i j else Y i j

end Verif.Schur
