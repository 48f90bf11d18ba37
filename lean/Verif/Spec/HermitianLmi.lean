import Verif.Spec.Hyper
import Verif.Model.HermitianLmi

/-!
# Specification for Hermitian linear matrix inequalities
-/

namespace Verif.HermLmi.Spec

open Hyper

variable {R : Type} {d n : Nat}

/-- The real part of `v* X v`. -/
def form [Ring R] (X : HMat d n R) (v : Col d n R) : R :=
  ∑ c : Fin d, ∑ r : Fin n, v c r () * multiply X v c r ()

/-- Hermitian, and `v* X v` is positive for all other columns than zero. -/
def PosDef [Ring R] [LinearOrder R] (X : HMat d n R) : Prop :=
  Hyper.Spec.Hermitian X ∧ ∀ v : Col d n R, v ≠ 0 → 0 < form X v

/-- A real number `μ` with `X v = v μ` for some column other than zero. -/
def Eigenvalue [Ring R] (X : HMat d n R) (μ : R) : Prop :=
  ∃ v : Col d n R, v ≠ 0 ∧ ∀ c r, multiply X v c r () = μ * v c r ()

/-- All matrices of the constraint are Hermitian. -/
def HermitianData [Ring R] (o : Con d n R) : Prop :=
  (∀ A ∈ o.mats, Hyper.Spec.Hermitian A) ∧ ∀ C ∈ o.affine, Hyper.Spec.Hermitian C

/-- Slack `k C - Σ yᵢ Aᵢ`. -/
def slack [Ring R] (A : List (HMat d n R)) (C : HMat d n R) (k : R) (y : Nat → R) : HMat d n R :=
  fun c r s => k * C c r s -
    ∑ i ∈ Finset.range A.length, y i * A.getD i (fun _ => 0) c r s

/-- The real part of the trace of `X Y` is a sum over components. -/
def inner [Ring R] (X Y : HMat d n R) : R := ∑ c : Fin d, ∑ r : Fin n, ∑ s : Fin n, X c r s * Y c r s

/-- The system contributed at the scaling point `W` with quadratic map `Q`; only the lower triangle of
`G` counts. -/
structure Contributes [Ring R] (Q : HMat d n R → HMat d n R) (A : List (HMat d n R)) (C W : HMat d n R)
    (G : Nat → Nat → R) (AW AQc : Nat → R) (wc cQc : R) : Prop where
  G : ∀ i < A.length, ∀ j ≤ i, G i j = inner (A.getD i fun _ => 0) (Q (A.getD j fun _ => 0))
  AW : ∀ i < A.length, AW i = inner (A.getD i fun _ => 0) W
  AQc : ∀ i < A.length, AQc i = inner (A.getD i fun _ => 0) (Q C)
  wc : wc = inner C W
  cQc : cQc = inner C (Q C)

end Verif.HermLmi.Spec
