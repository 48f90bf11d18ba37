import Mathlib.Algebra.BigOperators.Group.Finset.Basic
import Mathlib.Algebra.Field.Basic
import Mathlib.Logic.Equiv.Basic

/-!
# Specification of a factorization `Pᵀ L D Lᵀ P` (C103)
-/

namespace Verif.Dense.Spec

/-- Entry `(i, j)` of the unit lower triangular matrix stored strictly below the diagonal of `m`. -/
def unit {R : Type} [Field R] (m : Nat → Nat → R) (i j : Nat) : R :=
  if i = j then 1 else if j < i then m i j else 0

/-- The matrix `m` (multipliers below the diagonal, pivots on it) and the permutation `P` factorize
the `n × n` matrix `A`: entry `(i, j)` of `L D Lᵀ` is entry `(P i, P j)` of `A`. -/
def Factorizes {R : Type} [Field R] (n : Nat) (m : Nat → Nat → R) (P : Nat → Nat)
    (A : Nat → Nat → R) : Prop :=
  ∀ i, i < n → ∀ j, j < n →
    ∑ l ∈ Finset.range n, unit m i l * m l l * unit m j l = A (P i) (P j)

end Verif.Dense.Spec
