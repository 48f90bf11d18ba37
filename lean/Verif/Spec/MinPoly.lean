import Mathlib.LinearAlgebra.Matrix.Charpoly.Basic
import Mathlib.LinearAlgebra.Matrix.Rank
import Mathlib.Analysis.Complex.Polynomial.Basic
import Verif.Spec.HermitianLmi
import Verif.Model.MinPoly

/-!
# Specification for eigenvalues from the minimal polynomial
-/

namespace Verif.MinPoly.Spec

open Matrix

/-- Least squares: no vector has a smaller residual. -/
def LeastSquares (solve : Solver ℝ) : Prop :=
  ∀ d n (M : Matrix (Pos d n) (Fin n) ℝ) b z,
    (M *ᵥ solve d n M b - b) ⬝ᵥ (M *ᵥ solve d n M b - b) ≤ (M *ᵥ z - b) ⬝ᵥ (M *ᵥ z - b)

/-- A factorization with column pivots uses as many columns as the rank. -/
def Basic (solve : Solver ℝ) : Prop :=
  ∀ d n (M : Matrix (Pos d n) (Fin n) ℝ) b,
    (Finset.univ.filter fun i => solve d n M b i ≠ 0).card ≤ M.rank

/-- The real parts of the complex roots of the characteristic polynomial, each with its
multiplicity. -/
def RealParts (eig : ∀ n : Nat, Matrix (Fin n) (Fin n) ℝ → List ℝ) : Prop :=
  ∀ n c, (eig n c : Multiset ℝ) =
    ((c.charpoly.map (algebraMap ℝ ℂ)).roots.map Complex.re)

end Verif.MinPoly.Spec
