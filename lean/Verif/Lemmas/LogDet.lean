import Verif.Lemmas.TraceDecrease
import Verif.Lemmas.CentralPoint
import Mathlib.LinearAlgebra.Matrix.Charpoly.Coeff
import Mathlib.Analysis.Calculus.Deriv.Polynomial

/-!
# Lemmas for C98: the logarithm of the determinant of positive definite matrices
-/

namespace Verif.LogDet

open Finset Matrix
open Centering (Barrier.term_ge Barrier.term_le)

variable {ι : Type} [Fintype ι] [DecidableEq ι]

theorem psd_conj {U : Matrix ι ι ℝ} {d : ι → ℝ} (h : ∀ i, 0 ≤ d i) : (U * diagonal d * Uᵀ).PosSemidef := by
  have := (PosSemidef.diagonal h).mul_mul_conjTranspose_same U
  rwa [conjTranspose_eq_transpose_of_trivial] at this

theorem one_conj {U : Matrix ι ι ℝ} (h : U * Uᵀ = 1) (a : ℝ) : a • (1 : Matrix ι ι ℝ) = U * (diagonal fun _ => a) * Uᵀ := by
  have e : (diagonal fun _ : ι => a) = a • (1 : Matrix ι ι ℝ) := by
    ext i j
    by_cases hij : i = j
    · subst hij; simp
    · simp [diagonal_apply_ne _ hij, one_apply_ne hij]
  rw [e, Matrix.mul_smul, Matrix.mul_one, Matrix.smul_mul, h]

theorem sub_conj (U : Matrix ι ι ℝ) (d e : ι → ℝ) :
    U * diagonal d * Uᵀ - U * diagonal e * Uᵀ = U * (diagonal fun i => d i - e i) * Uᵀ := by
  rw [← Matrix.sub_mul, ← Matrix.mul_sub, diagonal_sub]

theorem add_conj (U : Matrix ι ι ℝ) (d e : ι → ℝ) :
    U * diagonal d * Uᵀ + U * diagonal e * Uᵀ = U * (diagonal fun i => d i + e i) * Uᵀ := by
  rw [← Matrix.add_mul, ← Matrix.mul_add, diagonal_add]

/-- Positive definite matrices, in an orthonormal basis. -/
theorem spectral {S : Matrix ι ι ℝ} (hS : S.PosDef) : ∃ (U : Matrix ι ι ℝ) (d : ι → ℝ), U * Uᵀ = 1 ∧ Uᵀ * U = 1 ∧
    S = U * diagonal d * Uᵀ ∧ ∀ i, 0 < d i := by
  obtain ⟨U, d, h1, h2, h3⟩ := Lmi.exists_spectral (Lmi.transpose_of_posDef hS)
  have hU : IsUnit U := isUnit_iff_exists.2 ⟨Uᵀ, h1, h2⟩
  exact ⟨U, d, h1, h2, h3, (Lmi.posDef_conj hU d).1 (h3 ▸ hS)⟩

/-- A positive definite matrix exceeds a multiple of the identity. -/
theorem exists_below {X : Matrix ι ι ℝ} (hX : X.PosDef) : ∃ μ > (0 : ℝ), (X - μ • (1 : Matrix ι ι ℝ)).PosSemidef := by
  obtain ⟨U, d, h1, h2, h3, h4⟩ := spectral hX
  have h5 : 0 < ∑ i, (d i)⁻¹ + 1 := add_pos_of_nonneg_of_pos (sum_nonneg fun i _ => (inv_pos.2 (h4 i)).le) one_pos
  refine ⟨(∑ i, (d i)⁻¹ + 1)⁻¹, inv_pos.2 h5, ?_⟩
  rw [h3, one_conj h1, sub_conj]
  refine psd_conj fun i => sub_nonneg.2 (inv_le_of_inv_le₀ (h4 i) ?_)
  have := single_le_sum (f := fun i => (d i)⁻¹) (fun i _ => (inv_pos.2 (h4 i)).le) (mem_univ i)
  linarith

omit [DecidableEq ι] in
theorem diag_nonneg {T : Matrix ι ι ℝ} (h : T.PosSemidef) (U : Matrix ι ι ℝ) (i : ι) : 0 ≤ (Uᵀ * T * U) i i := by
  have := h.conjTranspose_mul_mul_same U
  rw [conjTranspose_eq_transpose_of_trivial] at this
  exact this.diag_nonneg

/-- The trace of a product, and the logarithm of the determinant, by eigenvalues. -/
theorem bounds {X : Matrix ι ι ℝ} (hX : X.PosDef) : ∃ μ > (0 : ℝ), ∀ S : Matrix ι ι ℝ, S.PosDef →
    ∃ (U : Matrix ι ι ℝ) (d : ι → ℝ), U * Uᵀ = 1 ∧ Uᵀ * U = 1 ∧ S = U * diagonal d * Uᵀ ∧ (∀ i, 0 < d i) ∧
      ∑ i, (μ * d i - Real.log (d i)) ≤ (X * S).trace - Real.log S.det := by
  obtain ⟨μ, hμ, h⟩ := exists_below hX
  refine ⟨μ, hμ, fun S hS => ?_⟩
  obtain ⟨U, d, h1, h2, h3, h4⟩ := spectral hS
  refine ⟨U, d, h1, h2, h3, h4, ?_⟩
  have h5 : Real.log S.det = ∑ i, Real.log (d i) := by
    have e : S.det = ∏ i, d i := by
      have : U.det * Uᵀ.det = 1 := by rw [← det_mul, h1, det_one]
      rw [h3, det_mul, det_mul, det_diagonal]
      linear_combination (∏ i, d i) * this
    rw [e, Real.log_prod fun i _ => (h4 i).ne']
  have h6 : (X * S).trace = ∑ i, d i * (Uᵀ * X * U) i i := by
    rw [Matrix.trace_mul_comm, h3, Gap.trace_conj]
  rw [h5, h6, ← sum_sub_distrib]
  refine sum_le_sum fun i _ => sub_le_sub_right ?_ _
  rw [mul_comm]
  refine mul_le_mul_of_nonneg_left ?_ (h4 i).le
  have h7 := diag_nonneg h U i
  rw [Matrix.mul_sub, Matrix.sub_mul, Matrix.mul_smul, Matrix.mul_one, Matrix.smul_mul, h2, Matrix.sub_apply] at h7
  simp only [Matrix.smul_apply, one_apply_eq, smul_eq_mul, mul_one] at h7
  linarith

theorem lower {X : Matrix ι ι ℝ} (hX : X.PosDef) : ∃ m, ∀ S : Matrix ι ι ℝ, S.PosDef →
    m ≤ (X * S).trace - Real.log S.det := by
  obtain ⟨μ, hμ, h⟩ := bounds hX
  refine ⟨∑ _i : ι, (1 + Real.log μ), fun S hS => ?_⟩
  obtain ⟨U, d, -, -, -, h4, h5⟩ := h S hS
  exact (sum_le_sum fun i _ => Barrier.term_ge hμ (h4 i)).trans h5

/-- Level sets. -/
theorem level {X : Matrix ι ι ℝ} (hX : X.PosDef) (V : ℝ) : ∃ ε > (0 : ℝ), ∃ M, ∀ S : Matrix ι ι ℝ, S.PosDef →
    (X * S).trace - Real.log S.det ≤ V → (S - ε • (1 : Matrix ι ι ℝ)).PosSemidef ∧ (S * S).trace ≤ M := by
  obtain ⟨μ, hμ, h⟩ := bounds hX
  set V' := V + (Fintype.card ι + 1) * |1 + Real.log μ| with hV'
  set K := 2 * (V' - 1 - Real.log (μ / 2)) / μ with hK
  refine ⟨Real.exp (-V'), Real.exp_pos _, ∑ _i : ι, K ^ 2, fun S hS hle => ?_⟩
  obtain ⟨U, d, h1, h2, h3, h4, h5⟩ := h S hS
  have h6 : ∀ i, Real.exp (-V') ≤ d i ∧ d i ≤ K := fun i => by
    refine Barrier.term_le hμ (h4 i) ?_
    have h7 := sum_erase_add univ (fun i => μ * d i - Real.log (d i)) (mem_univ i)
    have h8 : ∑ j ∈ univ.erase i, (1 + Real.log μ) ≤ ∑ j ∈ univ.erase i, (μ * d j - Real.log (d j)) :=
      sum_le_sum fun j _ => Barrier.term_ge hμ (h4 j)
    rw [sum_const, nsmul_eq_mul] at h8
    have h9 : ((univ.erase i).card : ℝ) ≤ Fintype.card ι := by exact_mod_cast card_le_univ _
    have h10 : (0 : ℝ) ≤ ((univ.erase i).card : ℝ) := Nat.cast_nonneg _
    have h11 : -(((Fintype.card ι : ℝ) + 1) * |1 + Real.log μ|) ≤ ((univ.erase i).card : ℝ) * (1 + Real.log μ) := by
      have h12 := neg_abs_le (1 + Real.log μ)
      have h13 := abs_nonneg (1 + Real.log μ)
      nlinarith
    linarith
  refine ⟨?_, ?_⟩
  · rw [h3, one_conj h1, sub_conj]
    exact psd_conj fun i => sub_nonneg.2 (h6 i).1
  · have e : S * S = U * (diagonal fun i => d i ^ 2) * Uᵀ := by
      have e1 : (diagonal fun i => d i ^ 2) = diagonal d * diagonal d := by
        rw [diagonal_mul_diagonal]
        congr 1
        funext i
        ring
      rw [e1, h3]
      calc U * diagonal d * Uᵀ * (U * diagonal d * Uᵀ) = U * diagonal d * (Uᵀ * U) * diagonal d * Uᵀ := by
            simp only [Matrix.mul_assoc]
        _ = _ := by rw [h2, Matrix.mul_one]; simp only [Matrix.mul_assoc]
    have e2 : (S * S).trace = ∑ i, d i ^ 2 := by
      rw [e, Matrix.trace_mul_comm, ← Matrix.mul_assoc, h2, Matrix.one_mul, trace_diagonal]
    rw [e2]
    exact sum_le_sum fun i _ => pow_le_pow_left₀ (h4 i).le (h6 i).2 2

omit [Fintype ι] in
/-- Matrices that exceed a positive multiple of the identity. -/
theorem posDef_of_above {S : Matrix ι ι ℝ} {ε : ℝ} (hε : 0 < ε) (h : (S - ε • (1 : Matrix ι ι ℝ)).PosSemidef) : S.PosDef := by
  have := PosDef.posSemidef_add h (PosDef.one.smul hε : (ε • (1 : Matrix ι ι ℝ)).PosDef)
  rwa [sub_add_cancel] at this

theorem closed_above {α : Type} [TopologicalSpace α] {S : α → Matrix ι ι ℝ} (hc : Continuous S) (hs : ∀ y, (S y)ᵀ = S y)
    (ε : ℝ) : IsClosed {y | (S y - ε • (1 : Matrix ι ι ℝ)).PosSemidef} := by
  have e : {y | (S y - ε • (1 : Matrix ι ι ℝ)).PosSemidef} =
      ⋂ v : ι → ℝ, {y | 0 ≤ v ⬝ᵥ ((S y - ε • (1 : Matrix ι ι ℝ)) *ᵥ v)} := by
    ext y
    simp only [Set.mem_ofPred_eq, Set.mem_iInter]
    refine ⟨fun h v => ?_, fun h => PosSemidef.of_dotProduct_mulVec_nonneg ?_ fun v => ?_⟩
    · have := h.dotProduct_mulVec_nonneg v
      rwa [star_trivial] at this
    · rw [Matrix.IsHermitian, conjTranspose_eq_transpose_of_trivial, transpose_sub, transpose_smul, transpose_one, hs]
    · rw [star_trivial]
      exact h v
  rw [e]
  refine isClosed_iInter fun v => isClosed_le continuous_const ?_
  unfold dotProduct mulVec dotProduct
  refine continuous_finsetSum _ fun i _ => continuous_const.mul (continuous_finsetSum _ fun j _ => ?_)
  have h1 : Continuous fun y => S y i j := (continuous_apply j).comp ((continuous_apply i).comp hc)
  simp only [Matrix.sub_apply]
  exact (h1.sub continuous_const).mul continuous_const

/-- Small displacements. -/
theorem eventually_posDef {S H : Matrix ι ι ℝ} (hS : S.PosDef) (hH : Hᵀ = H) :
    ∀ᶠ t : ℝ in nhds 0, (S + t • H).PosDef := by
  obtain ⟨μ, hμ, h⟩ := exists_below hS
  obtain ⟨U, d, h1, h2, h3⟩ := Lmi.exists_spectral hH
  have hU : IsUnit U := isUnit_iff_exists.2 ⟨Uᵀ, h1, h2⟩
  have h4 : ∀ᶠ t : ℝ in nhds 0, ∀ i, 0 < μ + t * d i := by
    rw [Filter.eventually_all]
    intro i
    have : Continuous fun t : ℝ => μ + t * d i := by fun_prop
    exact (this.continuousAt (x := 0)).eventually (lt_mem_nhds (by simpa using hμ))
  filter_upwards [h4] with t ht
  have h5 : (μ • (1 : Matrix ι ι ℝ) + t • H).PosDef := by
    have e : t • H = U * (diagonal fun i => t * d i) * Uᵀ := by
      have : (diagonal fun i => t * d i) = t • diagonal d := by
        ext i j
        by_cases hij : i = j
        · subst hij; simp
        · simp [diagonal_apply_ne _ hij]
      rw [h3, this, Matrix.mul_smul, Matrix.smul_mul]
    rw [e, one_conj h1, add_conj]
    exact (Lmi.posDef_conj hU _).2 ht
  have := PosDef.posSemidef_add h h5
  rwa [← add_assoc, sub_add_cancel] at this

/-- The derivative. -/
theorem deriv {S : Matrix ι ι ℝ} (hS : S.PosDef) (H : Matrix ι ι ℝ) :
    HasDerivAt (fun t : ℝ => Real.log (S + t • H).det) (S⁻¹ * H).trace 0 := by
  have hu : IsUnit S.det := (Matrix.isUnit_iff_isUnit_det _).1 hS.isUnit
  have h0 : S.det ≠ 0 := hu.ne_zero
  have e : ∀ t : ℝ, (S + t • H).det = S.det * (1 + (S⁻¹ * H).trace * t +
      (Polynomial.eval t (det (1 + (Polynomial.X : Polynomial ℝ) • (S⁻¹ * H).map Polynomial.C)).divX.divX) * t ^ 2) := by
    intro t
    rw [← det_one_add_smul, ← det_mul, Matrix.mul_add, Matrix.mul_one, Matrix.mul_smul, ← Matrix.mul_assoc,
      Matrix.mul_nonsing_inv _ hu, Matrix.one_mul]
  have h1 : HasDerivAt (fun t : ℝ => (S + t • H).det) (S.det * (S⁻¹ * H).trace) 0 := by
    rw [funext e]
    set P := (det (1 + (Polynomial.X : Polynomial ℝ) • (S⁻¹ * H).map Polynomial.C)).divX.divX
    have h2 : HasDerivAt (fun t : ℝ => 1 + (S⁻¹ * H).trace * t + Polynomial.eval t P * t ^ 2)
        ((S⁻¹ * H).trace * 1 + (Polynomial.eval 0 P.derivative * (0 : ℝ) ^ 2 + Polynomial.eval 0 P * (2 * 0 ^ (2 - 1) * 1))) 0 :=
      (((hasDerivAt_id (0 : ℝ)).const_mul _).const_add _).add ((P.hasDerivAt 0).mul ((hasDerivAt_id (0 : ℝ)).pow 2))
    refine (h2.const_mul _).congr_deriv ?_
    simp
  refine (h1.log ?_).congr_deriv ?_
  · simpa using h0
  · simp only [zero_smul, add_zero]
    field_simp

/-- Monotony of the inverse: the trace of the product of the differences. -/
theorem inverse_mono {S T : Matrix ι ι ℝ} (hS : S.PosDef) (hT : T.PosDef) :
    0 ≤ -((S⁻¹ - T⁻¹) * (S - T)).trace ∧ (((S⁻¹ - T⁻¹) * (S - T)).trace = 0 → S = T) := by
  have hSu : IsUnit S.det := (Matrix.isUnit_iff_isUnit_det _).1 hS.isUnit
  have hTu : IsUnit T.det := (Matrix.isUnit_iff_isUnit_det _).1 hT.isUnit
  set Δ := S - T with hΔ
  have hΔt : Δᵀ = Δ := by rw [hΔ, transpose_sub, Lmi.transpose_of_posDef hS, Lmi.transpose_of_posDef hT]
  have e1 : S⁻¹ - T⁻¹ = -(S⁻¹ * Δ * T⁻¹) := by
    rw [hΔ, Matrix.mul_sub, Matrix.nonsing_inv_mul _ hSu, Matrix.sub_mul, Matrix.one_mul, Matrix.mul_assoc,
      Matrix.mul_nonsing_inv _ hTu, Matrix.mul_one, neg_sub]
  obtain ⟨V, -, v1, v2, -⟩ := Lmi.exists_basis (S := 1) hS.inv transpose_one
  obtain ⟨W, -, w1, w2, -⟩ := Lmi.exists_basis (S := 1) hT.inv transpose_one
  have e2 : ((S⁻¹ - T⁻¹) * Δ).trace = -∑ i, ∑ j, (Vᵀ * Δ * W) i j ^ 2 := by
    rw [e1, Matrix.neg_mul, trace_neg, v2, w2]
    congr 1
    have : (V * Vᵀ * Δ * (W * Wᵀ) * Δ).trace = ((Vᵀ * Δ * W) * (Vᵀ * Δ * W)ᵀ).trace := by
      rw [transpose_mul, transpose_mul, transpose_transpose, hΔt]
      rw [show V * Vᵀ * Δ * (W * Wᵀ) * Δ = V * (Vᵀ * Δ * (W * Wᵀ) * Δ) by simp only [Matrix.mul_assoc],
        Matrix.trace_mul_comm]
      simp only [Matrix.mul_assoc]
    rw [this]
    simp only [Matrix.trace, diag_apply, Matrix.mul_apply (M := Vᵀ * Δ * W) (N := (Vᵀ * Δ * W)ᵀ), transpose_apply]
    exact sum_congr rfl fun i _ => sum_congr rfl fun j _ => (sq _).symm
  have hnn : ∀ i ∈ univ, 0 ≤ ∑ j, (Vᵀ * Δ * W) i j ^ 2 := fun i _ => sum_nonneg fun j _ => sq_nonneg _
  refine ⟨by rw [e2, neg_neg]; exact sum_nonneg hnn, fun h => ?_⟩
  rw [e2, neg_eq_zero] at h
  have h2 : Vᵀ * Δ * W = 0 := by
    ext i j
    have h3 := (sum_eq_zero_iff_of_nonneg hnn).1 h i (mem_univ i)
    exact pow_eq_zero_iff two_ne_zero |>.1 ((sum_eq_zero_iff_of_nonneg fun j _ => sq_nonneg _).1 h3 j (mem_univ j))
  obtain ⟨V', v3, v4⟩ := isUnit_iff_exists.1 v1
  obtain ⟨W', w3, w4⟩ := isUnit_iff_exists.1 w1
  have h5 : Δ = 0 := by
    have h6 : V'ᵀ * Vᵀ = 1 := by rw [← transpose_mul, v3, transpose_one]
    calc Δ = (V'ᵀ * Vᵀ) * Δ * (W * W') := by rw [h6, w3, Matrix.one_mul, Matrix.mul_one]
      _ = V'ᵀ * (Vᵀ * Δ * W) * W' := by simp only [Matrix.mul_assoc]
      _ = 0 := by rw [h2, Matrix.mul_zero, Matrix.zero_mul]
  exact sub_eq_zero.1 h5

/-- The trace of the product of positive semidefinite matrices. -/
theorem trace_mul_nonneg {A B : Matrix ι ι ℝ} (hA : A.PosSemidef) (hB : B.PosDef) : 0 ≤ (A * B).trace := by
  obtain ⟨U, d, -, -, h3, h4⟩ := spectral hB
  rw [Matrix.trace_mul_comm, h3, Gap.trace_conj]
  exact sum_nonneg fun i _ => mul_nonneg (h4 i).le (diag_nonneg hA U i)

end Verif.LogDet
