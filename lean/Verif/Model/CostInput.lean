import Mathlib.Algebra.Order.Field.Basic
import Mathlib.Data.List.Range
import Verif.Model.Outcome

/-!
# The quadratic cost passed to the C interface

Model of `NonZeroSubMat`, `/repo/interfaces/conex.cc` 44-64, called by `CONEX_AddQuadraticCost`
(343-354) before it registers the cost (`Verif.CApi.addCost`).  Scalars are exact.
-/

namespace Verif.CostInput

variable {R : Type} [Field R] [LinearOrder R]

/-- `Y(r, c) = v`. -/
def write (Y : Nat → Nat → R) (r c : Nat) (v : R) : Nat → Nat → R :=
  fun i j => if i = r ∧ j = c then v else Y i j

/-- The inner loop, `/repo/interfaces/conex.cc` 57-61, from column `col` on. -/
def inner (M : Nat → Nat → R) (i row : Nat) : List Nat → Nat → (Nat → Nat → R) → Nat → Nat → R
  | [], _, Y => Y
  | j :: l, col, Y =>
    let Y := write Y row col ((M i j + M j i) / 2)
    let Y := write Y col row (Y row col)
    inner M i row l (col + 1) Y

/-- The outer loop, `/repo/interfaces/conex.cc` 55-63, from row `row` on. -/
def outer (M : Nat → Nat → R) (vars : List Nat) : List Nat → Nat → (Nat → Nat → R) → Nat → Nat → R
  | [], _, Y => Y
  | i :: l, row, Y => outer M vars l (row + 1) (inner M i row vars 0 Y)

/-- `NonZeroSubMat`, `/repo/interfaces/conex.cc` 44-64, for a matrix with `rows` rows and `cols` columns:
the variables and the matrix, whose entries are `Y₀` (not initialised) before the loops.  With more rows
than columns it reads out of range. -/
def nonZeroSubMat (rows cols : Nat) (M : Nat → Nat → R) (Y₀ : Nat → Nat → R) :
    Outcome (List Nat × (Nat → Nat → R)) :=
  if cols < rows then .ub
  else
    let vars := (List.range rows).filter fun i => 0 < M i i
    .ok (vars, outer M vars vars 0 Y₀)

end Verif.CostInput
