import Verif.Lemmas.Gap
import Verif.Lemmas.Updates
import Verif.Spec.MatrixExists
import Mathlib.Analysis.Matrix.Order

/-!
# Lemmas for C97 and C98: Hermitian matrices as real matrices
-/

namespace Verif.MatrixCentering

open Finset Matrix Hyper HermLmi
open Spec (hyperSlack hyperInverse HyperPosSemidef)

variable {d m : Nat}

/-- The inverse as a real matrix. -/
theorem lmat_inverse (h4 : d = 1 ∨ d = 2 ∨ d = 4) (S : HMat d m ℝ) : lmat (hyperInverse S) = (lmat S)⁻¹ := by
  have hD := dim_of_assoc h4
  unfold hyperInverse
  split_ifs with h
  · have h1 := congrArg lmat h.choose_spec
    rw [lmat_multiply h4, lmat_identity hD] at h1
    exact (Matrix.inv_eq_right_inv h1).symm
  · by_cases hu : IsUnit (lmat S).det
    · refine absurd ?_ h
      have h0 : 0 < d := by omega
      -- the columns of the identity
      let one : Fin m → Hyp d (Fin m) Unit ℝ := fun s c => Matrix.of fun r _ => (identity d : HMat d m ℝ) c r s
      let X : HMat d m ℝ := fun c => Matrix.of fun r s => ((lmat S)⁻¹ *ᵥ flat (one s)) (c, r)
      let col : Fin m → Hyp d (Fin m) Unit ℝ := fun s c => Matrix.of fun r _ => X c r s
      refine ⟨X, ?_⟩
      funext c
      ext r s
      have h1 : flat (multiply S (col s)) = flat (one s) := by
        rw [flat_multiply]
        have : flat (col s) = (lmat S)⁻¹ *ᵥ flat (one s) := rfl
        rw [this, mulVec_mulVec, Matrix.mul_nonsing_inv _ hu, one_mulVec]
      have h2 : multiply S (col s) c r () = identity d c r s := congrFun h1 (c, r)
      rw [← h2]
      simp only [multiply_apply, Matrix.sum_apply, Matrix.smul_apply, Matrix.mul_apply]
      rfl
    · rw [Matrix.nonsing_inv_apply_not_isUnit _ hu]
      ext p q
      simp [lmat]

theorem inner_symm (X Y : HMat d m ℝ) : HermLmi.Spec.inner X Y = HermLmi.Spec.inner Y X := by
  unfold HermLmi.Spec.inner
  exact sum_congr rfl fun _ _ => sum_congr rfl fun _ _ => sum_congr rfl fun _ _ => mul_comm _ _

theorem lmat_sub_smul (X Y : HMat d m ℝ) (a : ℝ) : lmat (fun k => X k - a • Y k) = lmat X - a • lmat Y := by
  ext p q
  simp only [lmat, Matrix.sub_apply, Matrix.smul_apply, smul_eq_mul, mul_sub, sum_sub_distrib, mul_sum]
  congr 1
  exact sum_congr rfl fun i _ => by ring

theorem hyperPosSemidef_lmat (h4 : d = 1 ∨ d = 2 ∨ d = 4) (X : HMat d m ℝ) : HyperPosSemidef X ↔ (lmat X).PosSemidef := by
  have hD := dim_of_assoc h4
  constructor
  · exact fun h => (Gap.psd_lmat hD h.1).1 h.2
  · intro h
    have h1 : Hyper.Spec.Hermitian X := by
      rw [hermitian_lmat hD]
      have := h.1
      rwa [Matrix.IsHermitian, conjTranspose_eq_transpose_of_trivial] at this
    exact ⟨h1, (Gap.psd_lmat hD h1).2 h⟩

theorem hermitian_hyperSlack {o : HermLmi.Con d m ℝ} (ho : HermLmi.Spec.HermitianData o) (c : ℝ) (y : Nat → ℝ) :
    Hyper.Spec.Hermitian (hyperSlack o c y) := by
  unfold hyperSlack
  cases hC : o.affine with
  | some C => exact HermLmi.hermitian_slack hC ho c y
  | none =>
    have h1 : Hyper.Spec.Hermitian (fun _ => 0 : HMat d m ℝ) := fun i r s => by simp
    exact HermLmi.hermitian_slack (o := ⟨o.mats, some fun _ => 0⟩) rfl ⟨ho.1, fun C hC => by
      cases hC
      exact h1⟩ c y

theorem hermitian_mats {o : HermLmi.Con d m ℝ} (ho : HermLmi.Spec.HermitianData o) (j : Nat) :
    Hyper.Spec.Hermitian (o.mats.getD j fun _ => 0) := by
  by_cases hj : j < o.mats.length
  · rw [List.getD_eq_getElem?_getD, List.getElem?_eq_getElem hj, Option.getD_some]
    exact ho.1 _ (List.getElem_mem hj)
  · rw [List.getD_eq_getElem?_getD, List.getElem?_eq_none (not_lt.1 hj), Option.getD_none]
    exact fun i r s => by simp

theorem hermitian_inverse (h4 : d = 1 ∨ d = 2 ∨ d = 4) {S : HMat d m ℝ} (hS : Hyper.Spec.Hermitian S) :
    Hyper.Spec.Hermitian (hyperInverse S) := by
  have hD := dim_of_assoc h4
  rw [hermitian_lmat hD, lmat_inverse h4, Matrix.transpose_nonsing_inv, (hermitian_lmat hD S).1 hS]

/-! ### Matrices with another index type -/

/-- A matrix indexed by pairs as a matrix indexed by numbers. -/
def renumber (M : Matrix (Fin d × Fin m) (Fin d × Fin m) ℝ) : Matrix (Fin (d * m)) (Fin (d * m)) ℝ :=
  M.submatrix finProdFinEquiv.symm finProdFinEquiv.symm

theorem renumber_trace (M : Matrix (Fin d × Fin m) (Fin d × Fin m) ℝ) : (renumber M).trace = M.trace := by
  unfold renumber Matrix.trace
  exact Equiv.sum_comp finProdFinEquiv.symm fun i => M i i

theorem renumber_mul (M M' : Matrix (Fin d × Fin m) (Fin d × Fin m) ℝ) :
    renumber M * renumber M' = renumber (M * M') := Matrix.submatrix_mul_equiv _ _ _ _ _

theorem renumber_inv (M : Matrix (Fin d × Fin m) (Fin d × Fin m) ℝ) : (renumber M)⁻¹ = renumber M⁻¹ :=
  Matrix.inv_submatrix_equiv _ _ _

theorem renumber_sub_smul (M M' : Matrix (Fin d × Fin m) (Fin d × Fin m) ℝ) (a : ℝ) :
    renumber M - a • renumber M' = renumber (M - a • M') := rfl

theorem renumber_transpose (M : Matrix (Fin d × Fin m) (Fin d × Fin m) ℝ) : (renumber M)ᵀ = renumber Mᵀ := rfl

theorem renumber_injective {M M' : Matrix (Fin d × Fin m) (Fin d × Fin m) ℝ} (h : renumber M = renumber M') : M = M' := by
  ext i j
  have := congrFun (congrFun h (finProdFinEquiv i)) (finProdFinEquiv j)
  simpa [renumber] using this

theorem renumber_posSemidef (M : Matrix (Fin d × Fin m) (Fin d × Fin m) ℝ) : (renumber M).PosSemidef ↔ M.PosSemidef :=
  Matrix.posSemidef_submatrix_equiv _

theorem renumber_posDef (M : Matrix (Fin d × Fin m) (Fin d × Fin m) ℝ) : (renumber M).PosDef ↔ M.PosDef := by
  have h : IsUnit (renumber M) ↔ IsUnit M := by
    rw [Matrix.isUnit_iff_isUnit_det, Matrix.isUnit_iff_isUnit_det]
    unfold renumber
    rw [Matrix.det_submatrix_equiv_self]
  constructor
  · intro h1
    exact (Matrix.PosSemidef.posDef_iff_isUnit ((renumber_posSemidef M).1 h1.posSemidef)).2 (h.1 h1.isUnit)
  · intro h1
    exact (Matrix.PosSemidef.posDef_iff_isUnit ((renumber_posSemidef M).2 h1.posSemidef)).2 (h.2 h1.isUnit)

end Verif.MatrixCentering
