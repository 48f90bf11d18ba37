import Verif.Model.HermitianLmi

/-!
# Eigenvalues from the minimal polynomial

Model of `Eigenvalues`, `/repo/conex/jordan_matrix_algebra.cc` 212-216, and of the functions it calls.
Scalars are exact.  Eigen's `colPivHouseholderQr().solve` and `EigenSolver` are the parameters `solve`
and `eig`.  For a matrix of order 0 the code asks for a block with −1 rows; the theorems need order at
least 1.
-/

namespace Verif.MinPoly

open Matrix Hyper

variable {R : Type} [Field R]

/-- The position of an entry in the vector that `Vect` returns,
`/repo/conex/jordan_matrix_algebra.cc` 25-34: the coordinate, the row, and the column.  Simplified: the
code numbers the positions, and the order does not matter here. -/
abbrev Pos (d n : Nat) := Fin d × Fin n × Fin n

/-- `Vect`, `/repo/conex/jordan_matrix_algebra.cc` 25-34. -/
def vect {d n : Nat} (x : HermLmi.HMat d n R) : Pos d n → R := fun q => x q.1 q.2.1 q.2.2

/-- `xpow` after `i` steps, `/repo/conex/jordan_matrix_algebra.cc` 43-47. -/
def power {d n : Nat} (x : HermLmi.HMat d n R) : Nat → HermLmi.HMat d n R
  | 0 => identity d
  | i + 1 => jordan (power x i) x

/-- The type of `M.colPivHouseholderQr().solve(b)`. -/
abbrev Solver (R : Type) := ∀ d n : Nat, Matrix (Pos d n) (Fin n) R → (Pos d n → R) → Fin n → R

/-- `MinimalPolynomial`, `/repo/conex/jordan_matrix_algebra.cc` 36-49: the coefficients below the
leading one. -/
def minimalPolynomial (solve : Solver R) {d n : Nat} (x : HermLmi.HMat d n R) : Fin n → R :=
  solve d n (fun q i => vect (power x i) q) fun q => -vect (power x n) q

/-- The matrix `c`, `/repo/conex/jordan_matrix_algebra.cc` 52-56. -/
def companion {n : Nat} (x : Fin n → R) : Matrix (Fin n) (Fin n) R := fun i j =>
  if i.1 + 1 = n then -x j else if i.1 + 1 = j.1 then 1 else 0

/-- `Roots`, `/repo/conex/jordan_matrix_algebra.cc` 51-58. -/
def roots (eig : ∀ n : Nat, Matrix (Fin n) (Fin n) R → List R) {n : Nat} (x : Fin n → R) : List R :=
  eig n (companion x)

/-- `Eigenvalues`, `/repo/conex/jordan_matrix_algebra.cc` 212-216. -/
def eigenvalues (solve : Solver R) (eig : ∀ n : Nat, Matrix (Fin n) (Fin n) R → List R) {d n : Nat}
    (x : HermLmi.HMat d n R) : List R :=
  roots eig (minimalPolynomial solve x)

end Verif.MinPoly
