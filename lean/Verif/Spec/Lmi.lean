import Verif.Spec.MatrixExp
import Verif.Model.Lmi

/-!
# Specification for linear matrix inequalities
-/

namespace Verif.Lmi.Spec

open Matrix

variable {R : Type} [Field R]

/-- The symmetric tridiagonal matrix with diagonal `a` and off-diagonal `b`. -/
def jacobi (a b : List R) : Matrix (Fin a.length) (Fin a.length) R := fun i j =>
  if i = j then a.getD i.1 0
  else if i.1 + 1 = j.1 then b.getD i.1 0
  else if j.1 + 1 = i.1 then b.getD j.1 0
  else 0

/-- What is used of the eigenvalue solver for symmetric tridiagonal matrices: it returns
eigenvalues, and at least one. -/
def TriEigenvalues (tri : List R → List R → List R) : Prop :=
  ∀ a b, a ≠ [] → a.length = b.length + 1 →
    tri a b ≠ [] ∧ ∀ t ∈ tri a b, MatrixExp.Spec.Eigenvalue (jacobi a b) t

/-- The matrix of the constraint is symmetric: all coefficients are. -/
def Symmetric {n : Nat} (o : Con n R) : Prop := (∀ i < o.m, (o.A i)ᵀ = o.A i) ∧ o.Cᵀ = o.C

/-- Slack `k C - Σ yᵢ Aᵢ`. -/
def slack {n : Nat} (o : Con n R) (k : R) (y : Nat → R) : Mat n R :=
  k • o.C - ∑ i ∈ Finset.range o.m, y i • o.A i

/-- The system contributed at the scaling point `W`; only the lower triangle of `G` counts. -/
structure Contributes {n : Nat} (o : Con n R) (W : Mat n R) (G : Nat → Nat → R) (AW AQc : Nat → R)
    (wc cQc : R) : Prop where
  G : ∀ i < o.m, ∀ j ≤ i, G i j = (o.A i * (W * o.A j * W)).trace
  AW : ∀ i < o.m, AW i = (o.A i * W).trace
  AQc : ∀ i < o.m, AQc i = (o.A i * (W * o.C * W)).trace
  wc : wc = (W * o.C).trace
  cQc : cQc = (o.C * (W * o.C * W)).trace

end Verif.Lmi.Spec
