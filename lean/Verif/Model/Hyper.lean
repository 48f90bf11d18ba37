import Mathlib.Data.Matrix.Mul
import Mathlib.LinearAlgebra.Matrix.Trace

/-!
# Matrices over the reals, the complex numbers, quaternions and octonions

Model of `/repo/conex/jordan_matrix_algebra.h` and `.cc`: class `MatrixAlgebra<n>`.  A
`HyperComplexMatrix` (jordan_matrix_algebra.h 8-86) is a vector of `n` real matrices, here a function
from `Fin d`.  Entries are exact; sizes are part of the type, so the size errors of Eigen do not
occur.  The class is instantiated for `n = 1, 2, 4, 8` only (jordan_matrix_algebra.cc 465-468); for
other values the sum over the entries of the result would leave the vector.
-/

namespace Verif.Hyper

open Matrix Finset

variable {R : Type} {ι κ l : Type} [Fintype ι] [Fintype κ] [DecidableEq ι]

/-- `HyperComplexMatrix` with `d` components. -/
abbrev Hyp (d : Nat) (ι κ R : Type) := Fin d → Matrix ι κ R

/-- The signs `M` of `Multiply`, `/repo/conex/jordan_matrix_algebra.cc` 106-113. -/
def signTable : List (List Int) :=
  [[1, 1, 1, 1, 1, 1, 1, 1],
   [1, -1, -1, 1, -1, 1, 1, -1],
   [1, 1, -1, -1, -1, -1, 1, 1],
   [1, -1, 1, -1, -1, 1, -1, 1],
   [1, 1, 1, 1, -1, -1, -1, -1],
   [1, -1, 1, -1, 1, -1, 1, -1],
   [1, -1, -1, 1, 1, -1, -1, 1],
   [1, 1, -1, -1, 1, 1, -1, -1]]

/-- The indices `indx` of `Multiply`, `/repo/conex/jordan_matrix_algebra.cc` 115-122. -/
def indexTable : List (List Nat) :=
  [[0, 1, 2, 3, 4, 5, 6, 7],
   [1, 0, 3, 2, 5, 4, 7, 6],
   [2, 3, 0, 1, 6, 7, 4, 5],
   [3, 2, 1, 0, 7, 6, 5, 4],
   [4, 5, 6, 7, 0, 1, 2, 3],
   [5, 4, 7, 6, 1, 0, 3, 2],
   [6, 7, 4, 5, 2, 3, 0, 1],
   [7, 6, 5, 4, 3, 2, 1, 0]]

/-- `M(i, j)`. -/
def sign (i j : Nat) : Int := (signTable.getD i []).getD j 0

/-- `indx(i, j)`. -/
def index (i j : Nat) : Nat := (indexTable.getD i []).getD j 0

variable [Ring R]

/-- `Identity`, `/repo/conex/jordan_matrix_algebra.cc` 61-69. -/
def identity (d : Nat) : Hyp d ι ι R := fun i => if i.1 = 0 then 1 else 0

/-- `Zero`, `/repo/conex/jordan_matrix_algebra.cc` 71-78. -/
def zero (d : Nat) : Hyp d ι κ R := fun _ => 0

/-- `ConjugateTranspose`, `/repo/conex/jordan_matrix_algebra.cc` 89-98. -/
def conjTranspose {d : Nat} (x : Hyp d ι κ R) : Hyp d κ ι R :=
  fun i => if i.1 = 0 then (x i)ᵀ else -(x i)ᵀ

/-- `Multiply`, `/repo/conex/jordan_matrix_algebra.cc` 100-138: component `c` of the result collects
the products `X_i Y_j` with `indx(i, j) = c`. -/
def multiply {d : Nat} (X : Hyp d ι κ R) (Y : Hyp d κ l R) : Hyp d ι l R :=
  fun c => ∑ i : Fin d, ∑ j : Fin d,
    if index i j = c then (if 1 ≤ sign i j then X i * Y j else -(X i * Y j)) else 0

/-- `Add`, `/repo/conex/jordan_matrix_algebra.cc` 140-150. -/
def add {d : Nat} (x y : Hyp d ι κ R) : Hyp d ι κ R := fun i => x i + y i

/-- `ScalarMultiply`, `/repo/conex/jordan_matrix_algebra.cc` 152-161. -/
def scalarMultiply {d : Nat} (x : Hyp d ι κ R) (s : R) : Hyp d ι κ R := fun i r c => x i r c * s

/-- `TraceInnerProduct`, `/repo/conex/jordan_matrix_algebra.cc` 203-210. -/
def traceInner {d : Nat} (x y : Hyp d ι κ R) : R :=
  ∑ i : Fin d, ∑ c : κ, ∑ r : ι, x i r c * y i r c

/-- `HyperComplexMatrix::squaredNorm`,
`/repo/conex/jordan_matrix_algebra.h` 57-63. -/
def squaredNorm {d : Nat} (x : Hyp d ι κ R) : R := ∑ i : Fin d, ∑ c : κ, ∑ r : ι, x i r c * x i r c

end Verif.Hyper

namespace Verif.Hyper

open Matrix Finset

variable {R : Type} {ι : Type} [Fintype ι] [Field R]

/-- `JordanMultiply`, `/repo/conex/jordan_matrix_algebra.cc` 163-169. -/
def jordan {d : Nat} (x y : Hyp d ι ι R) : Hyp d ι ι R :=
  scalarMultiply (add (multiply x y) (multiply y x)) (1 / 2)

/-- `QuadraticRepresentation`, `/repo/conex/jordan_matrix_algebra.cc` 171-177. -/
def quadRep {d : Nat} (x y : Hyp d ι ι R) : Hyp d ι ι R :=
  add (scalarMultiply (jordan x (jordan x y)) 2) (scalarMultiply (jordan (jordan x x) y) (-1))

/-- `MakeHermitian`, `/repo/conex/jordan_matrix_algebra.h` 114-116. -/
def makeHermitian {d : Nat} (x : Hyp d ι ι R) : Hyp d ι ι R :=
  scalarMultiply (add x (conjTranspose x)) (1 / 2)

end Verif.Hyper
