import Verif.Model.Lanczos
import Verif.Model.HermitianLmi
import Verif.Model.Outcome

/-!
# Eigenvalues of the Jacobi matrix

Model of the two classes `JacobiSolver`, `/repo/conex/approximate_eigenvalues.cc` 37-134 (used for
`compressed = false`, 241-256) and `/repo/conex/jordan_matrix_algebra.cc` 277-377.  They run the same
recurrence as `Verif.Model.Lanczos` on polynomials in the monomial basis.  A polynomial is a vector of
coefficients; it is a function here, and its length is passed where the code reads it.  Scalars are
exact, and `sqrt` is a parameter.  A division by zero or a square root of a negative number makes all
results NaN: the value `none`.
-/

namespace Verif.JacobiPoly

open Matrix

variable {R : Type} [Field R] [LinearOrder R]

/-- An inner product of two polynomials, each with its length. -/
abbrev Form (R : Type) := Nat → (Nat → R) → Nat → (Nat → R) → R

/-- `Avj(0) = 0; Avj.tail(n - 1) = v.head(n - 1)` for a vector `Avj` of length `n`,
`/repo/conex/approximate_eigenvalues.cc` 99-102 and 112-114. -/
def shift (n : Nat) (p : Nat → R) : Nat → R := fun i =>
  if i = 0 then 0 else if i < n then p (i - 1) else 0

/-- The polynomial 1, `/repo/conex/approximate_eigenvalues.cc` 88-90. -/
def one : Nat → R := fun i => if i = 0 then 1 else 0

/-- `vhat`, `/repo/conex/approximate_eigenvalues.cc` 99-104. -/
def residual (B : Form R) (n : Nat) (v vp : Nat → R) (beta : R) : Nat → R :=
  let av := shift n v
  let alpha := B n av n v
  fun i => av i - alpha * v i - beta * vp i

/-- The loop, `/repo/conex/approximate_eigenvalues.cc` 97-111, from `v = v.at(j)` and
`vp = v.at(j - 1)`: the pairs `(alpha_v(j - 1), beta_v(j - 1))` and the last polynomial. -/
def loop (B : Form R) (sqrt : R → R) (n : Nat) :
    Nat → (Nat → R) → (Nat → R) → R → Option (List (R × R) × (Nat → R))
  | 0, v, _, _ => some ([], v)
  | k + 1, v, vp, beta =>
    let vhat := residual B n v vp beta
    let s := B n vhat n vhat
    if s ≤ 0 then none
    else (loop B sqrt n k (fun i => vhat i / sqrt s) v (sqrt s)).map fun q =>
      ((B n (shift n v) n v, sqrt s) :: q.1, q.2)

/-- The loop with early stop, `/repo/conex/jordan_matrix_algebra.cc` 332-354.  What was computed before
the stop is kept. -/
def loopH (B : Form R) (sqrt : R → R) (n : Nat) :
    Nat → (Nat → R) → (Nat → R) → R → List (R × R) × (Nat → R)
  | 0, v, _, _ => ([], v)
  | k + 1, v, vp, beta =>
    let vhat := residual B n v vp beta
    let s := B n vhat n vhat
    if s ≤ 1 / 10 ^ 6 then ([], v)
    else
      let q := loopH B sqrt n k (fun i => vhat i / sqrt s) v (sqrt s)
      ((B n (shift n v) n v, sqrt s) :: q.1, q.2)

/-- Diagonal and off-diagonal, `/repo/conex/approximate_eigenvalues.cc` 112-120.  `beta_v` has one more
entry, which is not set; Eigen reads only the first `n - 1`. -/
def finish (B : Form R) (n : Nat) (q : List (R × R) × (Nat → R)) : List R × List R :=
  (q.1.map Prod.fst ++ [B (n + 1) (shift (n + 1) q.2) n q.2], q.1.map Prod.snd)

/-- `Eigenvalues`, `/repo/conex/approximate_eigenvalues.cc` 80-122, up to the eigenvalues of the
tridiagonal matrix.  For `n = 0` the access `one(0)` is outside of the vector. -/
def run (B : Form R) (sqrt : R → R) (n : Nat) : Outcome (Option (List R × List R)) :=
  if n = 0 then .ub
  else
    let s := B n one n one
    if s ≤ 0 then .ok none
    else .ok ((loop B sqrt n (n - 1) (fun i => one i / sqrt s) (fun _ => 0) (sqrt s)).map (finish B n))

/-- `Eigenvalues`, `/repo/conex/jordan_matrix_algebra.cc` 314-365. -/
def runH (B : Form R) (sqrt : R → R) (n : Nat) : Outcome (Option (List R × List R)) :=
  if n = 0 then .ub
  else
    let s := B n one n one
    if s ≤ 0 then .ok none
    else .ok (some (finish B n (loopH B sqrt n (n - 1) (fun i => one i / sqrt s) (fun _ => 0) (sqrt s))))

section Real

variable {ι : Type} [Fintype ι] [DecidableEq ι]

/-- `powers_of_A_`, `/repo/conex/approximate_eigenvalues.cc` 39-45. -/
def powers (A : Matrix ι ι R) : Nat → Matrix ι ι R
  | 0 => 1
  | i + 1 => A * powers A i

/-- `EvalPoly`, `/repo/conex/approximate_eigenvalues.cc` 71-78, for a vector of length `n`. -/
def evalPoly (A : Matrix ι ι R) (n : Nat) (p : Nat → R) : Matrix ι ι R :=
  (List.range (n - 1)).foldl (fun y i => y + p (i + 1) • powers A (i + 1)) (p 0 • powers A 0)

/-- `PolynomialInnerProduct`, `/repo/conex/approximate_eigenvalues.cc` 48-62. -/
def innerReal (A W : Matrix ι ι R) (r : ι → R) : Form R := fun np p nq q =>
  ((evalPoly A np p)ᵀ *ᵥ r) ⬝ᵥ ((evalPoly A nq q * W) *ᵥ r)

/-- `EigenvaluesOfJacobiMatrix`, `/repo/conex/approximate_eigenvalues.cc` 130-135. -/
def eigenvalues (sqrt : R → R) (tri : List R → List R → List R) (A W : Matrix ι ι R) (r : ι → R)
    (n : Nat) : Outcome (Option (List R)) := do
  let q ← run (innerReal A W r) sqrt n
  return q.map fun q => tri q.1 q.2

/-- `ApproximateEigenvalues` with `compressed = false`, `/repo/conex/approximate_eigenvalues.cc` 241-256,
for a square matrix of order `m`. -/
def approxEigenvalues {m : Nat} (sqrt : R → R) (tri : List R → List R → List R)
    (WS W : Matrix (Fin m) (Fin m) R) (r : Fin m → R) (n : Nat) : Outcome (Option (List R)) :=
  if m = 1 then .ok (some ((List.finRange m).map fun i => WS i i))
  else eigenvalues sqrt tri WS W r n

end Real

section Hyper

open Hyper HermLmi

variable {d m : Nat} [NeZero d]

/-- `powers_of_A_`, `/repo/conex/jordan_matrix_algebra.cc` 283-290. -/
def powersH (A : HMat d m R) : Nat → HMat d m R
  | 0 => identity d
  | i + 1 => multiply A (powersH A i)

/-- `EvalPoly`, `/repo/conex/jordan_matrix_algebra.cc` 305-312. -/
def evalPolyH (A : HMat d m R) (n : Nat) (p : Nat → R) : HMat d m R :=
  (List.range (n - 1)).foldl
    (fun y i => Hyper.add y (scalarMultiply (powersH A (i + 1)) (p (i + 1))))
    (scalarMultiply (powersH A 0) (p 0))

/-- `PolynomialInnerProduct`, `/repo/conex/jordan_matrix_algebra.cc` 293-298. -/
def innerHyper (A W : HMat d m R) : Form R := fun np p nq q =>
  (multiply (multiply (evalPolyH A np p) (evalPolyH A nq q)) W 0).trace

/-- `MatrixAlgebra<d>::EigenvaluesOfJacobiMatrix`, `/repo/conex/jordan_matrix_algebra.cc` 372-377. -/
def eigenvaluesH (sqrt : R → R) (tri : List R → List R → List R) (A W : HMat d m R)
    (n : Nat) : Outcome (Option (List R)) := do
  let q ← runH (innerHyper A W) sqrt n
  return q.map fun q => tri q.1 q.2

end Hyper

end Verif.JacobiPoly
