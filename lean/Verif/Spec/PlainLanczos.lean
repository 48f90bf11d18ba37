import Verif.Spec.Lmi
import Verif.Spec.HermitianLmi
import Verif.Model.PlainLanczos

/-!
# Specification for approximate eigenvalues of one matrix
-/

namespace Verif.Plain.Spec

open Matrix

variable {R : Type} [Field R]

/-- What Eigen's solver for tridiagonal matrices computes: all the eigenvalues. -/
def AllEigenvalues (tri : List R → List R → List R) : Prop :=
  ∀ a b, a.length = b.length + 1 →
    ∀ t, t ∈ tri a b ↔ MatrixExp.Spec.Eigenvalue (Lmi.Spec.jacobi a b) t

/-- `t` is the quotient `xᵀ A x / xᵀ x` for some `x`. -/
def Rayleigh {ι : Type} [Fintype ι] (A : Matrix ι ι R) (t : R) : Prop :=
  ∃ x : ι → R, x ≠ 0 ∧ x ⬝ᵥ (A *ᵥ x) = t * (x ⬝ᵥ x)

/-- `t` is the quotient `Re(x* A x) / x* x` for some column `x`. -/
def RayleighH {d n : Nat} (A : HermLmi.HMat d n R) (t : R) : Prop :=
  ∃ x : HermLmi.Col d n R, x ≠ 0 ∧
    HermLmi.Spec.form A x = t * ∑ c : Fin d, ∑ i : Fin n, x c i () * x c i ()

end Verif.Plain.Spec
