import Mathlib.LinearAlgebra.Matrix.NonsingularInverse
import Verif.Model.MatrixExp

/-!
# Requirements on linear solves, and the rational function of the approximation
-/

namespace Verif.MatrixExp.Spec

open Matrix

variable {R : Type} [Field R] {ι : Type} [Fintype ι] [DecidableEq ι]

/-- Linear systems with invertible matrix are solved. -/
def Solves (solve : Matrix ι ι R → Matrix ι ι R → Matrix ι ι R) : Prop :=
  ∀ D N, IsUnit D.det → D * solve D N = N

/-- The polynomial of the numerator; the denominator is its value at `-x`. -/
def p (x : R) : R := 120 + 60 * x + 12 * x ^ 2 + x ^ 3

/-- `μ` is an eigenvalue of `A`. -/
def Eigenvalue (A : Matrix ι ι R) (μ : R) : Prop := ∃ v : ι → R, v ≠ 0 ∧ A *ᵥ v = μ • v

end Verif.MatrixExp.Spec
