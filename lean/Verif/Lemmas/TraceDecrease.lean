import Verif.Lemmas.TraceCentering
import Verif.Lemmas.TaylorScalar

/-!
# Lemmas for C97: one step of a matrix inequality, in terms of real matrices
-/

namespace Verif.StepScalar

open Verif.MatrixExp.Spec (p)

/-- The Padé approximant is below the same polynomials as the exponential. -/
theorem pade_below {a : ℝ} (h0 : 0 ≤ a) (h1 : a ≤ 17 / 12) : Centering.Below a (p a / p (-a)) (p (-a) / p a) := by
  have h2 : 0 < p a := by unfold p; positivity
  have h3 : 0 < p (-a) := by unfold p; nlinarith [sq_nonneg (a - 1)]
  refine ⟨?_, ?_⟩
  · rw [div_le_iff₀ h3]
    have e : (1 + a + a ^ 2 / 2 + a ^ 3 / 6 + a ^ 4 / 24 + a ^ 5 / 86) * p (-a) - p a =
      a ^ 5 * (17 / 43 - 47 / 129 * a + 101 / 1032 * a ^ 2 - a ^ 3 / 86) := by
      unfold p
      ring
    have : 0 ≤ 17 / 43 - 47 / 129 * a + 101 / 1032 * a ^ 2 - a ^ 3 / 86 := by
      nlinarith [sq_nonneg a, sq_nonneg (a - 1), mul_nonneg (sq_nonneg a) (sub_nonneg.2 h1), sq_nonneg (a - 17 / 12)]
    nlinarith [mul_nonneg (pow_nonneg h0 5) this]
  · rw [div_le_iff₀ h2]
    have e : (1 - a + a ^ 2 / 2 - a ^ 3 / 6 + a ^ 4 / 24) * p a - p (-a) =
      a ^ 5 * (1 + a / 3 + a ^ 2 / 24) := by
      unfold p
      ring
    have : 0 ≤ 1 + a / 3 + a ^ 2 / 24 := by positivity
    nlinarith [mul_nonneg (pow_nonneg h0 5) this]

theorem pade_factors {t d : ℝ} (ht : 0 < t) (ht' : t ≤ 1) (htd : t * d ^ 2 ≤ 2) :
    Centering.Factors (t * d) (p (t * d) / p (-(t * d))) (p (t * d) / p (-(t * d)))⁻¹ := by
  rw [inv_div]
  refine ⟨fun h => pade_below h (Centering.length_le ht ht' htd), fun h => ?_⟩
  have h1 := pade_below (a := -(t * d)) (by linarith) (by
    rw [← mul_neg]
    exact Centering.length_le ht ht' (by rw [neg_sq]; exact htd))
  rwa [neg_neg] at h1

/-- One component of a step of size `t` in direction `d` with factor `r`, where the product of the two weights is at least
one; `κ` depends on the update. -/
def Component (κ t d r : ℝ) : Prop := ∀ α β : ℝ, 0 < α → 1 ≤ α * β → β * (r⁻¹ - 1) + α * (r - 1) ≤
  (t + κ * t ^ 2) * (β * (1 - d) + α * (1 + d) - 2) + (t + κ * t ^ 2 - t / 10) * d ^ 2

theorem pade_component {t d : ℝ} (ht : 0 < t) (ht' : t ≤ 1) (htd : t * d ^ 2 ≤ 2) :
    Component (1 / 3) t d (p (t * d) / p (-(t * d))) := fun α β hα hαβ => by
  have := Centering.component_factors ht ht' htd (pade_factors ht ht' htd) hα hαβ
  have e : t + 1 / 3 * t ^ 2 = t + t ^ 2 / 3 := by ring
  rw [e]
  exact this

theorem taylor_component {t d : ℝ} (ht : 0 < t) (ht' : t ≤ 1) (htd : t * d ^ 2 ≤ 2) :
    Component (5 / 16) t d (Centering.tay (t * d)) := fun _ _ hα hαβ => Centering.component_taylor ht ht' htd hα hαβ

end Verif.StepScalar

namespace Verif.Gap

open Finset Matrix

variable {ι : Type} [Fintype ι] [DecidableEq ι]

/-- Diagonals of a positive definite matrix and its inverse. -/
theorem diagonal_mul_inverse {T T' : Matrix ι ι ℝ} (hT : T.PosDef) (h : T * T' = 1) (i : ι) :
    0 < T i i ∧ 1 ≤ T i i * T' i i := by
  have hi : 0 < T i i := hT.diag_pos
  refine ⟨hi, ?_⟩
  have hsym : T'ᵀ * T = 1 := by
    have h1 := congrArg transpose h
    rw [transpose_mul, transpose_one] at h1
    have h2 := hT.1
    rw [Matrix.IsHermitian, conjTranspose_eq_transpose_of_trivial] at h2
    rwa [h2] at h1
  set e : ι → ℝ := Pi.single i 1 with he
  have key := hT.posSemidef.dotProduct_mulVec_nonneg ((T i i)⁻¹ • e - T' *ᵥ e)
  have e1 : T *ᵥ ((T i i)⁻¹ • e - T' *ᵥ e) = (T i i)⁻¹ • (T *ᵥ e) - e := by
    rw [mulVec_sub, mulVec_smul, mulVec_mulVec, h, one_mulVec]
  have e2 : (T' *ᵥ e) ⬝ᵥ (T *ᵥ e) = 1 := by
    rw [← vecMul_transpose, ← dotProduct_mulVec, mulVec_mulVec, hsym, one_mulVec, he]
    simp
  have e3 : e ⬝ᵥ (T *ᵥ e) = T i i := by simp [he]
  have e4 : (T' *ᵥ e) ⬝ᵥ e = T' i i := by simp [he]
  have e5 : e ⬝ᵥ e = 1 := by simp [he]
  rw [star_trivial, e1, sub_dotProduct, dotProduct_sub, dotProduct_sub, smul_dotProduct, smul_dotProduct, dotProduct_smul,
    dotProduct_smul, e2, e3, e4, e5] at key
  simp only [smul_eq_mul, mul_one] at key
  rw [inv_mul_cancel₀ hi.ne', mul_one] at key
  have := mul_le_mul_of_nonneg_left key hi.le
  have e6 := mul_inv_cancel₀ hi.ne'
  nlinarith

section Basis

variable {W W' S Q V : Matrix ι ι ℝ} {d r : ι → ℝ}

/-- The inverse of a matrix in a basis. -/
theorem inverse_conj {U : Matrix ι ι ℝ} (h1 : V * U = 1) (hr : ∀ i, r i ≠ 0) :
    (V * diagonal r * Vᵀ)⁻¹ = Uᵀ * (diagonal fun i => (r i)⁻¹) * U := by
  refine inv_eq_right_inv ?_
  have h2 : Vᵀ * Uᵀ = 1 := by rw [← transpose_mul, mul_eq_one_comm.1 h1, transpose_one]
  have h3 : diagonal r * (diagonal fun i => (r i)⁻¹) = 1 := by
    rw [diagonal_mul_diagonal, ← diagonal_one]
    congr 1
    funext i
    exact mul_inv_cancel₀ (hr i)
  calc V * diagonal r * Vᵀ * (Uᵀ * (diagonal fun i => (r i)⁻¹) * U)
      = V * diagonal r * (Vᵀ * Uᵀ) * (diagonal fun i => (r i)⁻¹) * U := by simp only [Matrix.mul_assoc]
    _ = V * (diagonal r * (diagonal fun i => (r i)⁻¹)) * U := by rw [h2, Matrix.mul_one]; simp only [Matrix.mul_assoc]
    _ = 1 := by rw [h3, Matrix.mul_one, h1]

theorem trace_conj (V : Matrix ι ι ℝ) (r : ι → ℝ) (Q : Matrix ι ι ℝ) :
    (V * diagonal r * Vᵀ * Q).trace = ∑ i, r i * (Vᵀ * Q * V) i i := by
  rw [← trace_diagonal_mul, Matrix.mul_assoc, Matrix.mul_assoc, Matrix.trace_mul_comm]
  simp only [Matrix.mul_assoc]

/-- The distance of a scaling point and a slack, in a basis. -/
theorem trace_separation {U : Matrix ι ι ℝ} (h1 : V * U = 1) (hr : ∀ i, r i ≠ 0) :
    (V * diagonal r * Vᵀ * Q).trace + ((V * diagonal r * Vᵀ)⁻¹ * Q⁻¹).trace =
      ∑ i, (r i * (Vᵀ * Q * V) i i + (r i)⁻¹ * (U * Q⁻¹ * Uᵀ) i i) := by
  have h2 := trace_conj Uᵀ (fun i => (r i)⁻¹) Q⁻¹
  rw [transpose_transpose] at h2
  rw [trace_conj, inverse_conj h1 hr, h2, sum_add_distrib]

/-- The slack of the central point in the basis, and its inverse. -/
theorem basis_weights {U : Matrix ι ι ℝ} (h1 : V * U = 1) (hQ : Q.PosDef) (i : ι) :
    0 < (Vᵀ * Q * V) i i ∧ 1 ≤ (Vᵀ * Q * V) i i * (U * Q⁻¹ * Uᵀ) i i := by
  have h2 := mul_eq_one_comm.1 h1
  have hV : IsUnit V := isUnit_iff_exists.2 ⟨U, h1, h2⟩
  refine diagonal_mul_inverse ?_ ?_ i
  · have := (Matrix.IsUnit.posDef_star_left_conjugate_iff hV (x := Q)).2 hQ
    rwa [star_eq_conjTranspose, conjTranspose_eq_transpose_of_trivial] at this
  · have h3 : Vᵀ * Uᵀ = 1 := by rw [← transpose_mul, h2, transpose_one]
    have h4 : Q * Q⁻¹ = 1 := Matrix.mul_nonsing_inv _ ((Matrix.isUnit_iff_isUnit_det _).1 hQ.isUnit)
    calc Vᵀ * Q * V * (U * Q⁻¹ * Uᵀ) = Vᵀ * Q * (V * U) * Q⁻¹ * Uᵀ := by simp only [Matrix.mul_assoc]
      _ = Vᵀ * (Q * Q⁻¹) * Uᵀ := by rw [h1, Matrix.mul_one]; simp only [Matrix.mul_assoc]
      _ = 1 := by rw [h4, Matrix.mul_one, h3]

/-- The distance is nonnegative. -/
theorem separation_nonneg {U : Matrix ι ι ℝ} (h1 : V * U = 1) (hQ : Q.PosDef) :
    2 * (Fintype.card ι : ℝ) ≤ (V * Vᵀ * Q).trace + ((V * Vᵀ)⁻¹ * Q⁻¹).trace := by
  have h2 := trace_separation (Q := Q) (r := fun _ => 1) h1 fun _ => one_ne_zero
  rw [diagonal_one, Matrix.mul_one] at h2
  rw [h2]
  have e5 : 2 * (Fintype.card ι : ℝ) = ∑ _i : ι, (2 : ℝ) := by simp [mul_comm]
  rw [e5]
  refine sum_le_sum fun i _ => ?_
  obtain ⟨h3, h4⟩ := basis_weights h1 hQ i
  rw [inv_one, one_mul, one_mul]
  set α := (Vᵀ * Q * V) i i
  set β := (U * Q⁻¹ * Uᵀ) i i
  have h5 : 0 < β := pos_of_mul_pos_right (by linarith) h3.le
  nlinarith [sq_nonneg (α - β)]

/-- One step of a matrix inequality. -/
theorem decrease_trace (hV : IsUnit V) (hVW : W = V * Vᵀ) (h : W * S * V = V * diagonal d)
    (hW' : W' = V * diagonal r * Vᵀ) (hQ : Q.PosDef) {κ t : ℝ} (hr0 : ∀ i, r i ≠ 0)
    (hr : ∀ i, StepScalar.Component κ t (1 - d i) (r i)) :
    (W' * Q).trace + (W'⁻¹ * Q⁻¹).trace - ((W * Q).trace + (W⁻¹ * Q⁻¹).trace) ≤
      -((t + κ * t ^ 2) * ((((2 : ℝ) • W - W * S * W) - Q⁻¹) * (S - Q)).trace) - t / 10 * ∑ i, (1 - d i) ^ 2 := by
  obtain ⟨U, h1, h2⟩ := isUnit_iff_exists.1 hV
  have hD := basis_slack hV hVW h
  have hUt : Vᵀ * Uᵀ = 1 := by rw [← transpose_mul, h2, transpose_one]
  have hUt' : Uᵀ * Vᵀ = 1 := by rw [← transpose_mul, h1, transpose_one]
  have s1 : W = V * (diagonal fun _ => 1) * Vᵀ := by rw [diagonal_one, Matrix.mul_one, hVW]
  have s2 := trace_separation (Q := Q) (r := fun _ => 1) h1 fun _ => one_ne_zero
  rw [← s1] at s2
  have s3 := trace_separation (Q := Q) h1 hr0
  rw [← hW'] at s3
  rw [s2, s3, ← sum_sub_distrib]
  -- the dual point
  have hS : S = Uᵀ * diagonal d * U := by
    rw [← hD]
    calc S = (Uᵀ * Vᵀ) * S * (V * U) := by rw [hUt', h1, Matrix.one_mul, Matrix.mul_one]
      _ = _ := by simp only [Matrix.mul_assoc]
  have hX : (2 : ℝ) • W - W * S * W = V * (diagonal fun i => 2 - d i) * Vᵀ := by
    have e4 : (diagonal fun i => 2 - d i) = (2 : ℝ) • (1 : Matrix ι ι ℝ) - Vᵀ * S * V := by
      rw [hD]
      ext i j
      by_cases h : i = j
      · subst h; simp
      · simp [diagonal_apply_ne _ h, one_apply_ne h]
    rw [e4, hVW]
    simp only [Matrix.mul_sub, Matrix.sub_mul, Matrix.mul_smul, Matrix.smul_mul, Matrix.mul_one, Matrix.mul_assoc]
  have t1 : (((2 : ℝ) • W - W * S * W) * S).trace = ∑ i, (2 - d i) * d i := by
    rw [hX, trace_conj, hD]
    simp
  have t2 : (((2 : ℝ) • W - W * S * W) * Q).trace = ∑ i, (2 - d i) * (Vᵀ * Q * V) i i := by rw [hX, trace_conj]
  have t3 : (Q⁻¹ * S).trace = ∑ i, d i * (U * Q⁻¹ * Uᵀ) i i := by
    have := trace_conj Uᵀ d Q⁻¹
    rw [transpose_transpose] at this
    rw [Matrix.trace_mul_comm, hS, this]
  have t4 : (Q⁻¹ * Q).trace = ∑ _i : ι, (1 : ℝ) := by
    rw [Matrix.nonsing_inv_mul _ ((Matrix.isUnit_iff_isUnit_det _).1 hQ.isUnit), trace_one]
    simp
  have e1 : ((((2 : ℝ) • W - W * S * W) - Q⁻¹) * (S - Q)).trace =
      ∑ i, ((2 - d i) * d i - (2 - d i) * (Vᵀ * Q * V) i i - d i * (U * Q⁻¹ * Uᵀ) i i + 1) := by
    rw [Matrix.sub_mul, Matrix.mul_sub, Matrix.mul_sub, Matrix.trace_sub, Matrix.trace_sub, Matrix.trace_sub, t1, t2, t3, t4]
    simp only [sum_add_distrib, sum_sub_distrib]
    ring
  rw [e1, mul_sum, mul_sum, ← sum_neg_distrib, ← sum_sub_distrib]
  refine sum_le_sum fun i _ => ?_
  obtain ⟨h3, h4⟩ := basis_weights h1 hQ i
  have := hr i _ _ h3 h4
  rw [inv_one]
  linarith

end Basis

end Verif.Gap
