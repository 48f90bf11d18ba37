import Mathlib.Algebra.Order.Field.Basic
import Mathlib.Data.Matrix.Mul

/-!
# Approximate eigenvalues of a scaled slack

Model of `AsymmetricLanczos` and `ApproximateEigenvalues` with `compressed = true`,
`/repo/conex/approximate_eigenvalues.cc` 173-256.  Scalars are exact, `sqrt` is a parameter, and so
are the eigenvalues `tri` of the tridiagonal matrix with given diagonal and off-diagonal (Eigen's
`computeFromTridiagonal`).  A normalisation by zero gives NaN in all results; it is the outcome
`none`.
-/

namespace Verif.Lanczos

open Matrix

variable {R : Type} [Field R] [LinearOrder R] {ι : Type} [Fintype ι]

/-- A pair of columns: the matrices `V`, `U` of the code. -/
structure Pair (ι R : Type) where
  c0 : ι → R
  c1 : ι → R

/-- `inner_product`, `/repo/conex/approximate_eigenvalues.cc` 173-176. -/
def inner (V U : Pair ι R) : R := V.c0 ⬝ᵥ U.c1

/-- `U.col(0) = WS * V.col(0); U.col(1) = WS.transpose() * V.col(1)`,
`/repo/conex/approximate_eigenvalues.cc` 210-211 and 227-228. -/
def apply (WS : Matrix ι ι R) (V : Pair ι R) : Pair ι R := ⟨WS *ᵥ V.c0, WSᵀ *ᵥ V.c1⟩

/-- `V - a * U`. -/
def subSmul (V : Pair ι R) (a : R) (U : Pair ι R) : Pair ι R := ⟨V.c0 - a • U.c0, V.c1 - a • U.c1⟩

/-- `V / a`. -/
def divBy (V : Pair ι R) (a : R) : Pair ι R := ⟨fun i => V.c0 i / a, fun i => V.c1 i / a⟩

/-- The loop, `/repo/conex/approximate_eigenvalues.cc` 217-232, as the list of pairs
`(beta(j - 1), alpha(j))`: it stops early when the residual is small. -/
def loop (sqrt : R → R) (WS : Matrix ι ι R) : Nat → Pair ι R → Pair ι R → List (R × R)
  | 0, _, _ => []
  | k + 1, V, U =>
    if inner U U < 1 / 10 ^ 6 then []
    else
      let beta := sqrt (inner U U)
      let V' := divBy U beta
      let U' := apply WS V'
      let alpha := inner V' U'
      (beta, alpha) :: loop sqrt WS k V' (subSmul (subSmul U' alpha V') beta V)

/-- `AsymmetricLanczos`, `/repo/conex/approximate_eigenvalues.cc` 178-239, up to the eigenvalues of
the tridiagonal matrix: its diagonal and off-diagonal.  `iters` is `num_iter`, which is positive in
all calls. -/
def lanczos (sqrt : R → R) (WS W : Matrix ι ι R) (r : ι → R) (iters : Nat) :
    Option (List R × List R) :=
  let V : Pair ι R := ⟨W *ᵥ r, r⟩
  if inner V V ≤ 0 then none
  else
    let V := divBy V (sqrt (inner V V))
    let U := apply WS V
    let alpha := inner V U
    let l := loop sqrt WS (iters - 1) V (subSmul U alpha V)
    some (alpha :: l.map Prod.snd, l.map Prod.fst)

/-- `ApproximateEigenvalues`, `/repo/conex/approximate_eigenvalues.cc` 241-256, for a square matrix
of order `n` and `compressed = true`. -/
def approxEigenvalues {n : Nat} (sqrt : R → R) (tri : List R → List R → List R)
    (WS W : Matrix (Fin n) (Fin n) R) (r : Fin n → R) (iters : Nat) : Option (List R) :=
  if n = 1 then some ((List.finRange n).map fun i => WS i i)
  else (lanczos sqrt WS W r iters).map fun q => tri q.1 q.2

end Verif.Lanczos
