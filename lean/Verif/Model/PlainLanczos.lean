import Verif.Model.Lanczos
import Verif.Model.HermitianLmi
import Verif.Model.Outcome

/-!
# Approximate eigenvalues of one matrix

Model of `ApproximateEigenvalues(A, r0, num_iter)`, `/repo/conex/approximate_eigenvalues.cc`
147-171, and of `MatrixAlgebra<d>::ApproximateEigenvalues(A, r0, num_iter)`,
`/repo/conex/jordan_matrix_algebra.cc` 239-275.  As in `Verif.Model.Lanczos` scalars are exact, `sqrt`
and the eigenvalues `tri` of a tridiagonal matrix are parameters.  A division by a norm that is zero
makes the rest of the recurrence, and so the tridiagonal matrix, NaN: that is the value `none`.
-/

namespace Verif.Plain

open Matrix

variable {R : Type} [Field R] [LinearOrder R]

section Real

variable {ι : Type} [Fintype ι]

/-- The loop, `/repo/conex/approximate_eigenvalues.cc` 158-164, as the list of pairs
`(beta(j - 1), alpha(j))`: `u` is `V.col(j - 1)` and `w` is `wprev`.  There is no early stop. -/
def loop (sqrt : R → R) (A : Matrix ι ι R) : Nat → (ι → R) → (ι → R) → Option (List (R × R))
  | 0, _, _ => some []
  | k + 1, u, w =>
    let beta := sqrt (w ⬝ᵥ w)
    if beta = 0 then none
    else
      let v : ι → R := fun i => w i / beta
      let alpha := (v ᵥ* A) ⬝ᵥ v
      (loop sqrt A k v (A *ᵥ v - alpha • v - beta • u)).map ((beta, alpha) :: ·)

/-- `ApproximateEigenvalues`, `/repo/conex/approximate_eigenvalues.cc` 147-164: diagonal and
off-diagonal of the tridiagonal matrix.  For `num_iter = 0` the vector `beta` gets the size `-1`. -/
def lanczos (sqrt : R → R) (A : Matrix ι ι R) (r : ι → R) (iters : Nat) :
    Outcome (Option (List R × List R)) :=
  if iters = 0 then .ub
  else
    let norm := sqrt (r ⬝ᵥ r)
    if norm = 0 then .ok none
    else
      let v : ι → R := fun i => r i / norm
      let alpha := (v ᵥ* A) ⬝ᵥ v
      .ok ((loop sqrt A (iters - 1) v (A *ᵥ v - alpha • v)).map fun l =>
        (alpha :: l.map Prod.snd, l.map Prod.fst))

/-- `/repo/conex/approximate_eigenvalues.cc` 166-170. -/
def eigenvalues (sqrt : R → R) (tri : List R → List R → List R) (A : Matrix ι ι R) (r : ι → R)
    (iters : Nat) : Outcome (Option (List R)) :=
  do
    let q ← lanczos sqrt A r iters
    return q.map fun q => tri q.1 q.2

end Real

section Hyper

open Hyper HermLmi

variable {d n : Nat} [NeZero d]

/-- `squaredNorm` of a column, `/repo/conex/jordan_matrix_algebra.h` 61-67. -/
def squaredNorm (x : Col d n R) : R := ∑ c : Fin d, ∑ i : Fin n, x c i () * x c i ()

/-- `alpha(j)`, `/repo/conex/jordan_matrix_algebra.cc` 250-252 and 262-263. -/
def quotient (A : HMat d n R) (v : Col d n R) : R :=
  multiply (conjTranspose v) (multiply A v) 0 () ()

/-- The loop, `/repo/conex/jordan_matrix_algebra.cc` 257-269. -/
def loopH (sqrt : R → R) (A : HMat d n R) :
    Nat → Col d n R → Col d n R → Option (List (R × R))
  | 0, _, _ => some []
  | k + 1, u, w =>
    let beta := sqrt (squaredNorm w)
    if beta = 0 then none
    else
      let v := scalarMultiply w (1 / beta)
      let alpha := quotient A v
      let w' := Hyper.add (multiply A v) (scalarMultiply v (-alpha))
      (loopH sqrt A k v (Hyper.add w' (scalarMultiply u (-beta)))).map ((beta, alpha) :: ·)

/-- `MatrixAlgebra<d>::ApproximateEigenvalues`, `/repo/conex/jordan_matrix_algebra.cc` 240-269.  The
assertion that the matrix is Hermitian is a hypothesis of the theorems. -/
def lanczosH (sqrt : R → R) (A : HMat d n R) (r : Col d n R) (iters : Nat) :
    Outcome (Option (List R × List R)) :=
  if iters = 0 then .ub
  else
    let norm := sqrt (squaredNorm r)
    if norm = 0 then .ok none
    else
      let v := scalarMultiply r (1 / norm)
      let alpha := quotient A v
      let w := Hyper.add (multiply A v) (scalarMultiply v (-alpha))
      .ok ((loopH sqrt A (iters - 1) v w).map fun l => (alpha :: l.map Prod.snd, l.map Prod.fst))

/-- `/repo/conex/jordan_matrix_algebra.cc` 271-274. -/
def eigenvaluesH (sqrt : R → R) (tri : List R → List R → List R) (A : HMat d n R) (r : Col d n R)
    (iters : Nat) : Outcome (Option (List R)) :=
  do
    let q ← lanczosH sqrt A r iters
    return q.map fun q => tri q.1 q.2

end Hyper

end Verif.Plain
