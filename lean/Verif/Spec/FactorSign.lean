import Mathlib.Algebra.BigOperators.Group.Finset.Basic
import Mathlib.Algebra.Order.Field.Basic

/-!
# Specification of semidefinite matrices given by their lower triangle (C104)
-/

namespace Verif.Dense.Spec

/-- The value of the quadratic form of the symmetric matrix with lower triangle `A` at `x`. -/
def form {R : Type} [Field R] (n : Nat) (A : Nat → Nat → R) (x : Nat → R) : R :=
  ∑ i ∈ Finset.range n, ∑ j ∈ Finset.range n, x i * A (max i j) (min i j) * x j

end Verif.Dense.Spec
