import Verif.Spec.Hyper

/-!
# Specification for the orthogonalization of columns
-/

namespace Verif.Ortho.Spec

open Matrix Hyper

variable {R : Type} [Ring R] {d n m : Nat}

/-- The columns are orthonormal: `Q* Q` is the identity. -/
def Orthonormal (Q : Hyp d (Fin n) (Fin m) R) : Prop :=
  multiply (Hyper.conjTranspose Q) Q = identity d

/-- Column `k` of `Q` is a combination of the first columns of `A`, and the coefficient of column `k` is
real and positive. -/
def Triangular [LinearOrder R] (A Q : Hyp d (Fin n) (Fin m) R) : Prop :=
  ∃ S : Hyp d (Fin m) (Fin m) R, Q = multiply A S ∧ (∀ c l k, k < l → S c l k = 0) ∧
    ∀ (c : Fin d) k, if c.1 = 0 then 0 < S c k k else S c k k = 0

/-- No combination of the columns vanishes but the trivial one. -/
def Independent (A : Hyp d (Fin n) (Fin m) R) : Prop :=
  ∀ v : Hyp d (Fin m) Unit R, multiply A v = 0 → v = 0

end Verif.Ortho.Spec
