import Mathlib.Analysis.SpecialFunctions.Log.Deriv
import Mathlib.Analysis.Normed.Module.FiniteDimension
import Mathlib.Analysis.Calculus.LocalExtr.Basic

/-!
# Lemmas for C89: the minimum of a quadratic function with a logarithmic barrier
-/

namespace Verif.Centering.Barrier

open Finset

variable {N : Nat} {κ : Type} [Fintype κ]

/-- A slack. -/
def slk (α : κ → Fin N → ℝ) (d : κ → ℝ) (k : κ) (y : Fin N → ℝ) : ℝ := d k - ∑ u, α k u * y u

/-- A quadratic form. -/
def quad (Q : Fin N → Fin N → ℝ) (y : Fin N → ℝ) : ℝ := ∑ u, y u * ∑ v, Q u v * y v

theorem slk_cont (α : κ → Fin N → ℝ) (d : κ → ℝ) (k : κ) : Continuous (slk α d k) := by
  unfold slk
  fun_prop

theorem quad_cont (Q : Fin N → Fin N → ℝ) : Continuous (quad Q) := by
  unfold quad
  fun_prop

theorem quad_smul (Q : Fin N → Fin N → ℝ) (c : ℝ) (y : Fin N → ℝ) : quad Q (c • y) = c ^ 2 * quad Q y := by
  unfold quad
  rw [mul_sum]
  refine sum_congr rfl fun u _ => ?_
  rw [mul_sum, mul_sum, mul_sum]
  exact sum_congr rfl fun v _ => by
    simp only [Pi.smul_apply, smul_eq_mul]
    ring

theorem quad_add {Q : Fin N → Fin N → ℝ} (hsym : ∀ u v, Q u v = Q v u) (w h : Fin N → ℝ) (t : ℝ) :
    quad Q (w + t • h) = quad Q w + 2 * t * (∑ u, h u * ∑ v, Q u v * w v) + t ^ 2 * quad Q h := by
  have h1 : ∑ u, w u * ∑ v, Q u v * h v = ∑ u, h u * ∑ v, Q u v * w v := by
    simp only [mul_sum]
    rw [sum_comm]
    exact sum_congr rfl fun u _ => sum_congr rfl fun v _ => by rw [hsym v u]; ring
  have h2 : quad Q (w + t • h) = quad Q w + t * (∑ u, w u * ∑ v, Q u v * h v) + t * (∑ u, h u * ∑ v, Q u v * w v) +
      t ^ 2 * quad Q h := by
    unfold quad
    simp only [mul_sum, ← sum_add_distrib]
    exact sum_congr rfl fun u _ => sum_congr rfl fun v _ => by
      simp only [Pi.add_apply, Pi.smul_apply, smul_eq_mul]
      ring
  rw [h2, h1]
  ring

/-- The form that all functionals and the quadratic form make up is positive definite. -/
theorem coercive {α : κ → Fin N → ℝ} {Q : Fin N → Fin N → ℝ} (hpsd : ∀ y, 0 ≤ quad Q y)
    (hker : ∀ y : Fin N → ℝ, (∀ k, ∑ u, α k u * y u = 0) → quad Q y = 0 → y = 0) :
    ∃ δ > 0, ∀ y, δ * ‖y‖ ^ 2 ≤ ∑ k, (∑ u, α k u * y u) ^ 2 + quad Q y := by
  set G : (Fin N → ℝ) → ℝ := fun y => ∑ k, (∑ u, α k u * y u) ^ 2 + quad Q y with hG
  have hcont : Continuous G := by
    have := quad_cont Q
    fun_prop
  have hnn : ∀ y, 0 ≤ G y := fun y => add_nonneg (sum_nonneg fun k _ => sq_nonneg _) (hpsd y)
  by_cases hne : (Metric.sphere (0 : Fin N → ℝ) 1).Nonempty
  · obtain ⟨m, hm, hmin⟩ := (isCompact_sphere (0 : Fin N → ℝ) 1).exists_isMinOn hne hcont.continuousOn
    have hm0 : m ≠ 0 := by
      rintro rfl
      simp at hm
    have hpos : 0 < G m := by
      refine lt_of_le_of_ne (hnn m) fun h => hm0 (hker m (fun k => ?_) ?_)
      · have h1 : ∑ k, (∑ u, α k u * m u) ^ 2 = 0 := by
          have := sum_nonneg (s := univ) fun k (_ : k ∈ univ) => sq_nonneg (∑ u, α k u * m u)
          have h2 := hpsd m
          simp only [hG] at h
          linarith
        exact pow_eq_zero_iff (two_ne_zero) |>.1 ((sum_eq_zero_iff_of_nonneg fun k _ => sq_nonneg _).1 h1 k (mem_univ k))
      · have := sum_nonneg (s := univ) fun k (_ : k ∈ univ) => sq_nonneg (∑ u, α k u * m u)
        have h2 := hpsd m
        simp only [hG] at h
        linarith
    refine ⟨G m, hpos, fun y => ?_⟩
    change _ ≤ G y
    by_cases hy : y = 0
    · rw [hy, norm_zero]
      simpa using hnn 0
    have hn : 0 < ‖y‖ := norm_pos_iff.2 hy
    have h1 : G y = ‖y‖ ^ 2 * G (‖y‖⁻¹ • y) := by
      simp only [hG]
      rw [quad_smul, mul_add, ← mul_assoc, ← mul_pow, mul_inv_cancel₀ hn.ne', one_pow, one_mul, mul_sum]
      congr 1
      refine sum_congr rfl fun k _ => ?_
      rw [← mul_pow, mul_sum]
      congr 1
      refine sum_congr rfl fun u _ => ?_
      simp only [Pi.smul_apply, smul_eq_mul]
      field_simp
    have h2 : G m ≤ G (‖y‖⁻¹ • y) := hmin (by
      simp [norm_smul, hn.ne'])
    rw [h1, mul_comm]
    exact mul_le_mul_of_nonneg_left h2 (by positivity)
  · refine ⟨1, one_pos, fun y => ?_⟩
    have hy : y = 0 := by
      by_contra hy
      exact hne ⟨‖y‖⁻¹ • y, by simp [norm_smul, (norm_pos_iff.2 hy).ne']⟩
    change _ ≤ G y
    rw [hy, norm_zero]
    simpa using hnn 0

theorem term_ge {x s : ℝ} (hx : 0 < x) (hs : 0 < s) : 1 + Real.log x ≤ x * s - Real.log s := by
  have := Real.log_le_sub_one_of_pos (mul_pos hx hs)
  rw [Real.log_mul hx.ne' hs.ne'] at this
  linarith

theorem term_le {x s T : ℝ} (hx : 0 < x) (hs : 0 < s) (h : x * s - Real.log s ≤ T) :
    Real.exp (-T) ≤ s ∧ s ≤ 2 * (T - 1 - Real.log (x / 2)) / x := by
  constructor
  · rw [← Real.le_log_iff_exp_le hs]
    nlinarith [mul_pos hx hs]
  · rw [le_div_iff₀ hx]
    have := Real.log_le_sub_one_of_pos (mul_pos (half_pos hx) hs)
    rw [Real.log_mul (half_pos hx).ne' hs.ne'] at this
    linarith

/-- A quadratic function with a logarithmic barrier has a stationary point, if there are strictly feasible points
of the program and of its dual. -/
theorem stationary {α : κ → Fin N → ℝ} {Q : Fin N → Fin N → ℝ} {d : κ → ℝ} (hsym : ∀ u v, Q u v = Q v u)
    (hpsd : ∀ y, 0 ≤ quad Q y)
    (hker : ∀ y : Fin N → ℝ, (∀ k, ∑ u, α k u * y u = 0) → quad Q y = 0 → y = 0) {y₁ : Fin N → ℝ}
    (y₂ : Fin N → ℝ) {x : κ → ℝ} (hx : ∀ k, 0 < x k) (hy : ∀ k, 0 < slk α d k y₁) :
    ∃ z, (∀ k, 0 < slk α d k z) ∧ ∀ u, ∑ k, α k u / slk α d k z + ∑ v, Q u v * z v =
      ∑ k, x k * α k u + ∑ v, Q u v * y₂ v := by
  obtain ⟨δ, hδ, hco⟩ := coercive hpsd hker
  set F : (Fin N → ℝ) → ℝ := fun y => quad Q (y - y₂) / 2 + ∑ k, (x k * slk α d k y - Real.log (slk α d k y)) with hF
  set m : κ → ℝ := fun k => 1 + Real.log (x k) with hm
  set T : κ → ℝ := fun k => F y₁ - ∑ j, m j + m k with hT
  set M : κ → ℝ := fun k => 2 * (T k - 1 - Real.log (x k / 2)) / x k with hM
  set K : Set (Fin N → ℝ) := {y | (∀ k, Real.exp (-T k) ≤ slk α d k y ∧ slk α d k y ≤ M k) ∧
    quad Q (y - y₂) ≤ 2 * (F y₁ - ∑ j, m j)} with hK
  -- a point that is not worse than the first one lies in `K`
  have hmem : ∀ y, (∀ k, 0 < slk α d k y) → F y ≤ F y₁ → y ∈ K := by
    intro y hy' hle
    have h1 : ∀ k ∈ (univ : Finset κ), 0 ≤ x k * slk α d k y - Real.log (slk α d k y) - m k := fun k _ =>
      sub_nonneg.2 (term_ge (hx k) (hy' k))
    have h2 : ∑ k, (x k * slk α d k y - Real.log (slk α d k y) - m k) =
        ∑ k, (x k * slk α d k y - Real.log (slk α d k y)) - ∑ k, m k := sum_sub_distrib ..
    have h3 := sum_nonneg h1
    have h4 := hpsd (y - y₂)
    have h5 : F y = quad Q (y - y₂) / 2 + ∑ k, (x k * slk α d k y - Real.log (slk α d k y)) := rfl
    refine ⟨fun k => term_le (hx k) (hy' k) ?_, by linarith⟩
    have h6 := single_le_sum h1 (mem_univ k)
    simp only [hT]
    linarith
  have hy₁ : y₁ ∈ K := hmem y₁ hy le_rfl
  have hpos : ∀ y ∈ K, ∀ k, 0 < slk α d k y := fun y h k => (Real.exp_pos _).trans_le (h.1 k).1
  have hclosed : IsClosed K := by
    have h1 : K = (⋂ k, ({y | Real.exp (-T k) ≤ slk α d k y} ∩ {y | slk α d k y ≤ M k})) ∩
        {y | quad Q (y - y₂) ≤ 2 * (F y₁ - ∑ j, m j)} := by
      ext y
      simp [hK]
    rw [h1]
    exact (isClosed_iInter fun k => (isClosed_le continuous_const (slk_cont α d k)).inter
      (isClosed_le (slk_cont α d k) continuous_const)).inter
      (isClosed_le ((quad_cont Q).comp (continuous_id.sub continuous_const)) continuous_const)
  have hbdd : Bornology.IsBounded K := by
    set C := ∑ k, (|slk α d k y₂| + |M k|) ^ 2 + 2 * (F y₁ - ∑ j, m j) with hC
    refine (Metric.isBounded_closedBall (x := y₂) (r := Real.sqrt (C / δ))).subset fun y hyK => ?_
    rw [mem_closedBall_iff_norm]
    refine Real.le_sqrt_of_sq_le ?_
    rw [le_div_iff₀ hδ, mul_comm]
    refine (hco (y - y₂)).trans (add_le_add (sum_le_sum fun k _ => ?_) hyK.2)
    have h1 : ∑ u, α k u * (y - y₂) u = slk α d k y₂ - slk α d k y := by
      unfold slk
      simp only [Pi.sub_apply, mul_sub, sum_sub_distrib]
      ring
    rw [h1, ← sq_abs]
    refine pow_le_pow_left₀ (abs_nonneg _) ((abs_sub _ _).trans (add_le_add le_rfl ?_)) 2
    rw [abs_of_pos (hpos y hyK k)]
    exact (hyK.1 k).2.trans (le_abs_self _)
  have hcompact : IsCompact K := Metric.isCompact_of_isClosed_isBounded hclosed hbdd
  have hFc : ContinuousOn F K := by
    refine ContinuousOn.add ?_ (continuousOn_finset_sum _ fun k _ => ContinuousOn.sub ?_ ?_)
    · exact (((quad_cont Q).comp (continuous_id.sub continuous_const)).div_const 2).continuousOn
    · exact (continuous_const.mul (slk_cont α d k)).continuousOn
    · exact (slk_cont α d k).continuousOn.log fun y hyK => (hpos y hyK k).ne'
  obtain ⟨z, hzK, hmin⟩ := hcompact.exists_isMinOn ⟨y₁, hy₁⟩ hFc
  have hz := hpos z hzK
  have hglobal : ∀ y, (∀ k, 0 < slk α d k y) → F z ≤ F y := by
    intro y hy'
    by_cases h : F y ≤ F y₁
    · exact hmin (hmem y hy' h)
    · exact (hmin hy₁).trans (not_le.1 h).le
  refine ⟨z, hz, fun u₀ => ?_⟩
  -- the derivative in the direction of `u₀`
  set h : Fin N → ℝ := Pi.single u₀ 1 with hh
  have hsum : ∀ f : Fin N → ℝ, ∑ u, h u * f u = f u₀ := fun f => by simp [hh, Pi.single_apply]
  have hslk : ∀ k t, slk α d k (z + t • h) = slk α d k z - t * α k u₀ := by
    intro k t
    have h1 := hsum (α k)
    unfold slk
    rw [← h1, mul_sum, sub_sub, ← sum_add_distrib]
    congr 1
    exact sum_congr rfl fun u _ => by
      simp only [Pi.add_apply, Pi.smul_apply, smul_eq_mul]
      ring
  set φ : ℝ → ℝ := fun t => F (z + t • h) with hφ
  have hloc : IsLocalMin φ 0 := by
    have h1 : ∀ᶠ t in nhds (0 : ℝ), ∀ k, 0 < slk α d k (z + t • h) := by
      rw [Filter.eventually_all]
      intro k
      have h2 : Continuous fun t : ℝ => slk α d k (z + t • h) := by
        have := slk_cont α d k
        fun_prop
      exact h2.continuousAt.eventually (lt_mem_nhds (by simpa using hz k))
    filter_upwards [h1] with t ht
    simp only [hφ, zero_smul, add_zero]
    exact hglobal _ ht
  set B := ∑ v, Q u₀ v * (z - y₂) v with hB
  have hφ' : φ = fun t => (quad Q (z - y₂) + 2 * t * B + t ^ 2 * quad Q h) / 2 +
      ∑ k, (x k * (slk α d k z - t * α k u₀) - Real.log (slk α d k z - t * α k u₀)) := by
    funext t
    simp only [hφ, hF]
    rw [show z + t • h - y₂ = (z - y₂) + t • h by abel, quad_add hsym, hsum]
    simp only [hslk]
    rfl
  have hder : HasDerivAt φ (B + ∑ k, (-(x k * α k u₀) + α k u₀ / slk α d k z)) 0 := by
    rw [hφ']
    refine HasDerivAt.add ?_ (HasDerivAt.fun_sum fun k _ => ?_)
    · have h1 : HasDerivAt (fun t : ℝ => (quad Q (z - y₂) + 2 * t * B + t ^ 2 * quad Q h) / 2)
          ((0 + 2 * 1 * B + (2 * (0 : ℝ) ^ (2 - 1) * 1) * quad Q h) / 2) 0 :=
        ((((hasDerivAt_id (0 : ℝ)).const_mul 2).mul_const B).const_add _ |>.add
          (((hasDerivAt_id (0 : ℝ)).pow 2).mul_const _)).div_const 2 |>.congr_deriv (by simp)
      exact h1.congr_deriv (by ring)
    · have h1 : HasDerivAt (fun t : ℝ => slk α d k z - t * α k u₀) (-(α k u₀)) 0 := by
        simpa using ((hasDerivAt_id (0 : ℝ)).mul_const (α k u₀)).const_sub (slk α d k z)
      refine ((h1.const_mul (x k)).sub (h1.log (by simpa using (hz k).ne'))).congr_deriv ?_
      simp only [zero_mul, sub_zero]
      ring
  have := hloc.hasDerivAt_eq_zero hder
  rw [sum_add_distrib, sum_neg_distrib] at this
  have h3 : B = ∑ v, Q u₀ v * z v - ∑ v, Q u₀ v * y₂ v := by
    simp only [hB, Pi.sub_apply, mul_sub, sum_sub_distrib]
  linarith

end Verif.Centering.Barrier
