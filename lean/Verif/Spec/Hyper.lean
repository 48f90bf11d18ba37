import Mathlib.Analysis.Quaternion
import Mathlib.LinearAlgebra.Matrix.ConjTranspose
import Verif.Model.Hyper

/-!
# Complex and quaternionic matrices as those of Mathlib
-/

namespace Verif.Hyper.Spec

open Matrix

variable {ι κ : Type}

/-- The dimensions of the four algebras. -/
def Dim (d : Nat) : Prop := d = 1 ∨ d = 2 ∨ d = 4 ∨ d = 8

/-- Two real matrices as a complex matrix. -/
def toC (X : Hyp 2 ι κ ℝ) : Matrix ι κ ℂ := fun r c => ⟨X 0 r c, X 1 r c⟩

/-- Four real matrices as a quaternionic matrix; the last unit is `-k`. -/
def toH (X : Hyp 4 ι κ ℝ) : Matrix ι κ (Quaternion ℝ) :=
  fun r c => ⟨X 0 r c, X 1 r c, X 2 r c, -X 3 r c⟩

/-- The real part is symmetric, the other components are skew-symmetric. -/
def Hermitian {R : Type} [Ring R] {d : Nat} (X : Hyp d ι ι R) : Prop :=
  ∀ i : Fin d, ∀ r c, X i r c = if i.1 = 0 then X i c r else -X i c r

end Verif.Hyper.Spec
