import Mathlib.Algebra.BigOperators.Group.Finset.Basic
import Mathlib.Algebra.Order.Field.Basic

/-!
# Positive definite systems (C68, C20)
-/

namespace Verif.Sup.Spec

variable {R : Type} [Field R] [LinearOrder R]

/-- The quadratic form of the `N × N` matrix `M` is positive. -/
def PosDef (N : Nat) (M : Nat → Nat → R) : Prop :=
  ∀ x : Nat → R, (∃ i, i < N ∧ x i ≠ 0) →
    0 < ∑ i ∈ Finset.range N, ∑ j ∈ Finset.range N, x i * M i j * x j

/-- What is used of the square root. -/
def SqrtOK (sqrt : R → R) : Prop := ∀ d, 0 < d → 0 < sqrt d ∧ sqrt d * sqrt d = d

end Verif.Sup.Spec
