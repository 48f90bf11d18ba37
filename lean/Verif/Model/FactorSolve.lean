import Verif.Model.FactorSign

/-!
# Model of `RLDLT::solve` and `RLDLT::reconstructedMatrix` (conex/RLDLT.h 608-652, 664-700)

For one right-hand side; the columns of a matrix of right-hand sides are solved independently. Sizes
that do not match are excluded by assertions of Eigen and are not modelled.
-/

namespace Verif.Dense

open Finset

variable {R : Type} [Field R] [LinearOrder R]

/-- Division by the pivots (RLDLT.h 636-641): a pivot that is not above `tiny`, the smallest normal
number (line 634), gives zero. -/
def divPivots (n : Nat) (tiny : R) (m : Nat → Nat → R) (y : Nat → R) : Nat → R := fun i =>
  if i < n then (if tiny < |m i i| then y i / m i i else 0) else y i

/-- `_solve_impl` (RLDLT.h 608-650), and `solveInPlace` (664-673), which calls it. The triangular
solves are Eigen's: `fsub` and `bsub`. -/
def Factor.solve (n : Nat) (tiny : R) (f : Factor R) (b : Nat → R) : Nat → R :=
  let y := fun i => b (permOf f.tr i)
  let y := fsub (unitLower f.mat) n y
  let y := divPivots n tiny f.mat y
  let y := bsub (unitLower f.mat) n y
  fun i => y ((permOf f.tr).symm i)

/-- `reconstructedMatrix` (RLDLT.h 675-700): five products, starting from the identity. -/
def Factor.reconstructed (n : Nat) (f : Factor R) : Nat → Nat → R :=
  let res := fun i j => if i = j then (1 : R) else 0
  let res := fun i j => res (permOf f.tr i) j
  let res := fun i j => ∑ l ∈ range n, unitLower f.mat l i * res l j
  let res := fun i j => f.mat i i * res i j
  let res := fun i j => ∑ l ∈ range n, unitLower f.mat i l * res l j
  fun i j => res ((permOf f.tr).symm i) j

end Verif.Dense
