import Verif.Lemmas.CentralPoint

/-!
# Lemmas for C93: the minimum of a quadratic function with the barrier of a product of quadratic cones

The head of the slack of a cone is an affine function, the square `T` of its tail and the product `P` with a dual point
are given functions.
-/

namespace Verif.Centering.Barrier

open Finset

variable {N : Nat} {κ : Type} [Fintype κ]

theorem quad_sum (Q : Fin N → Fin N → ℝ) (R : κ → Fin N → Fin N → ℝ) (y : Fin N → ℝ) :
    quad (fun u v => Q u v + ∑ k, R k u v) y = quad Q y + ∑ k, quad (R k) y := by
  unfold quad
  rw [sum_comm, ← sum_add_distrib]
  refine sum_congr rfl fun u _ => ?_
  rw [← mul_sum, ← mul_add, sum_comm, ← sum_add_distrib]
  congr 1
  refine sum_congr rfl fun v _ => ?_
  rw [add_mul, sum_mul]

/-- The term of a cone. -/
theorem cone_ge {μ s T P : ℝ} (hμ : 0 < μ) (hs : 0 < s) (h0 : 0 ≤ T) (hT : T < s ^ 2) (hP : μ * s ≤ P) :
    2 * (1 + Real.log (μ / 2)) ≤ P - Real.log (s ^ 2 - T) := by
  have h1 := term_ge (half_pos hμ) hs
  have h2 : Real.log (s ^ 2 - T) ≤ Real.log (s ^ 2) := Real.log_le_log (by linarith) (by linarith)
  rw [Real.log_pow] at h2
  push_cast at h2
  linarith

theorem cone_le {μ s T P V : ℝ} (hμ : 0 < μ) (hs : 0 < s) (h0 : 0 ≤ T) (hT : T < s ^ 2) (hP : μ * s ≤ P)
    (h : P - Real.log (s ^ 2 - T) ≤ V) : Real.exp (-V) ≤ s ^ 2 - T ∧ Real.exp (-(V / 2)) ≤ s ∧
      s ≤ 2 * (V / 2 - 1 - Real.log (μ / 2 / 2)) / (μ / 2) := by
  have h2 : Real.log (s ^ 2 - T) ≤ Real.log (s ^ 2) := Real.log_le_log (by linarith) (by linarith)
  rw [Real.log_pow] at h2
  push_cast at h2
  refine ⟨?_, term_le (half_pos hμ) hs (by linarith)⟩
  rw [← Real.le_log_iff_exp_le (by linarith)]
  nlinarith [mul_pos hμ hs]

/-- The barrier of a product of cones with a quadratic function has a stationary point. -/
theorem cone_stationary {α : κ → Fin N → ℝ} {Q : Fin N → Fin N → ℝ} {R : κ → Fin N → Fin N → ℝ} {d : κ → ℝ}
    {T P : κ → (Fin N → ℝ) → ℝ} {ω μ : κ → ℝ} {y₁ : Fin N → ℝ}
    (hsym : ∀ u v, Q u v = Q v u) (hpsd : ∀ y, 0 ≤ quad Q y) (hR : ∀ k y, 0 ≤ quad (R k) y)
    (hker : ∀ y : Fin N → ℝ, (∀ k, ∑ u, α k u * y u = 0) → (∀ k, quad (R k) y = 0) → quad Q y = 0 → y = 0)
    (y₂ : Fin N → ℝ) (hω : ∀ k, 0 < ω k) (hμ : ∀ k, 0 < μ k) (hT0 : ∀ k y, 0 ≤ T k y)
    (hRT : ∀ k y y', quad (R k) (y - y') ≤ 2 * T k y + 2 * T k y')
    (hTc : ∀ k, Continuous (T k)) (hPc : ∀ k, Continuous (P k))
    (hP : ∀ k y, 0 < slk α d k y → T k y < slk α d k y ^ 2 → μ k * slk α d k y ≤ P k y)
    {E : κ → Fin N → (Fin N → ℝ) → ℝ} {C q : κ → Fin N → ℝ}
    (hTe : ∀ k u z (t : ℝ), T k (z + t • Pi.single u (1 : ℝ)) = T k z + t * E k u z + t ^ 2 * C k u)
    (hPe : ∀ k u z (t : ℝ), P k (z + t • Pi.single u (1 : ℝ)) = P k z + t * q k u)
    (hy : ∀ k, 0 < slk α d k y₁ ∧ T k y₁ < slk α d k y₁ ^ 2) :
    ∃ z, (∀ k, 0 < slk α d k z ∧ T k z < slk α d k z ^ 2) ∧ ∀ u, ∑ v, Q u v * z v - ∑ v, Q u v * y₂ v +
      ∑ k, ω k * (q k u + (2 * slk α d k z * α k u + E k u z) / (slk α d k z ^ 2 - T k z)) = 0 := by
  obtain ⟨δ, hδ, hco⟩ := coercive (α := α) (Q := fun u v => Q u v + ∑ k, R k u v)
    (fun y => by
      rw [quad_sum]
      exact add_nonneg (hpsd y) (sum_nonneg fun k _ => hR k y))
    (fun y h1 h2 => by
      rw [quad_sum] at h2
      have h3 := hpsd y
      have h4 := sum_nonneg fun k (_ : k ∈ univ) => hR k y
      exact hker y h1 (fun k => (sum_eq_zero_iff_of_nonneg fun k _ => hR k y).1 (by linarith) k (mem_univ k))
        (by linarith))
  set F : (Fin N → ℝ) → ℝ := fun y => quad Q (y - y₂) / 2 +
    ∑ k, ω k * (P k y - Real.log (slk α d k y ^ 2 - T k y)) with hF
  set m : κ → ℝ := fun k => ω k * (2 * (1 + Real.log (μ k / 2))) with hm
  set V : κ → ℝ := fun k => (F y₁ - ∑ j, m j + m k) / ω k with hV
  set M : κ → ℝ := fun k => 2 * (V k / 2 - 1 - Real.log (μ k / 2 / 2)) / (μ k / 2) with hM
  set K : Set (Fin N → ℝ) := {y | (∀ k, Real.exp (-V k) ≤ slk α d k y ^ 2 - T k y ∧
    Real.exp (-(V k / 2)) ≤ slk α d k y ∧ slk α d k y ≤ M k) ∧
    quad Q (y - y₂) ≤ 2 * (F y₁ - ∑ j, m j)} with hK
  -- a point that is not worse than the first one lies in `K`
  have hmem : ∀ y, (∀ k, 0 < slk α d k y ∧ T k y < slk α d k y ^ 2) → F y ≤ F y₁ → y ∈ K := by
    intro y hy' hle
    have h1 : ∀ k ∈ (univ : Finset κ), 0 ≤ ω k * (P k y - Real.log (slk α d k y ^ 2 - T k y)) - m k := fun k _ => by
      have := mul_le_mul_of_nonneg_left (cone_ge (hμ k) (hy' k).1 (hT0 k y) (hy' k).2
        (hP k y (hy' k).1 (hy' k).2)) (hω k).le
      simp only [hm]
      linarith
    have h2 : ∑ k, (ω k * (P k y - Real.log (slk α d k y ^ 2 - T k y)) - m k) =
        ∑ k, ω k * (P k y - Real.log (slk α d k y ^ 2 - T k y)) - ∑ k, m k := sum_sub_distrib ..
    have h3 := sum_nonneg h1
    have h4 := hpsd (y - y₂)
    have h5 : F y = quad Q (y - y₂) / 2 + ∑ k, ω k * (P k y - Real.log (slk α d k y ^ 2 - T k y)) := rfl
    refine ⟨fun k => cone_le (hμ k) (hy' k).1 (hT0 k y) (hy' k).2 (hP k y (hy' k).1 (hy' k).2) ?_, by linarith⟩
    have h6 := single_le_sum h1 (mem_univ k)
    simp only [hV]
    rw [le_div_iff₀ (hω k)]
    linarith
  have hy₁ : y₁ ∈ K := hmem y₁ hy le_rfl
  have hpos : ∀ y ∈ K, ∀ k, 0 < slk α d k y ∧ T k y < slk α d k y ^ 2 := fun y h k =>
    ⟨(Real.exp_pos _).trans_le (h.1 k).2.1, sub_pos.1 ((Real.exp_pos _).trans_le (h.1 k).1)⟩
  have hDc : ∀ k, Continuous fun y => slk α d k y ^ 2 - T k y := fun k =>
    ((slk_cont α d k).pow 2).sub (hTc k)
  have hclosed : IsClosed K := by
    have h1 : K = (⋂ k, ({y | Real.exp (-V k) ≤ slk α d k y ^ 2 - T k y} ∩
        ({y | Real.exp (-(V k / 2)) ≤ slk α d k y} ∩ {y | slk α d k y ≤ M k}))) ∩
        {y | quad Q (y - y₂) ≤ 2 * (F y₁ - ∑ j, m j)} := by
      ext y
      simp [hK]
    rw [h1]
    exact (isClosed_iInter fun k => (isClosed_le continuous_const (hDc k)).inter
      ((isClosed_le continuous_const (slk_cont α d k)).inter
      (isClosed_le (slk_cont α d k) continuous_const))).inter
      (isClosed_le ((quad_cont Q).comp (continuous_id.sub continuous_const)) continuous_const)
  have hbdd : Bornology.IsBounded K := by
    set C := ∑ k, (|slk α d k y₂| + |M k|) ^ 2 + (2 * (F y₁ - ∑ j, m j) +
      ∑ k, (2 * M k ^ 2 + 2 * T k y₂)) with hC
    refine (Metric.isBounded_closedBall (x := y₂) (r := Real.sqrt (C / δ))).subset fun y hyK => ?_
    rw [mem_closedBall_iff_norm]
    refine Real.le_sqrt_of_sq_le ?_
    rw [le_div_iff₀ hδ, mul_comm]
    refine (hco (y - y₂)).trans ?_
    rw [quad_sum]
    refine add_le_add (sum_le_sum fun k _ => ?_) (add_le_add hyK.2 (sum_le_sum fun k _ => ?_))
    · have h1 : ∑ u, α k u * (y - y₂) u = slk α d k y₂ - slk α d k y := by
        unfold slk
        simp only [Pi.sub_apply, mul_sub, sum_sub_distrib]
        ring
      rw [h1, ← sq_abs]
      refine pow_le_pow_left₀ (abs_nonneg _) ((abs_sub _ _).trans (add_le_add le_rfl ?_)) 2
      rw [abs_of_pos (hpos y hyK k).1]
      exact (hyK.1 k).2.2.trans (le_abs_self _)
    · have h1 := hpos y hyK k
      have h2 := pow_le_pow_left₀ h1.1.le (hyK.1 k).2.2 2
      have h3 := hRT k y y₂
      linarith
  have hcompact : IsCompact K := Metric.isCompact_of_isClosed_isBounded hclosed hbdd
  have hFc : ContinuousOn F K := by
    refine ContinuousOn.add ?_ (continuousOn_finsetSum _ fun k _ => ContinuousOn.mul continuousOn_const
      (ContinuousOn.sub ?_ ?_))
    · exact (((quad_cont Q).comp (continuous_id.sub continuous_const)).div_const 2).continuousOn
    · exact (hPc k).continuousOn
    · exact (hDc k).continuousOn.log fun y hyK => (sub_pos.2 (hpos y hyK k).2).ne'
  obtain ⟨z, hzK, hmin⟩ := hcompact.exists_isMinOn ⟨y₁, hy₁⟩ hFc
  have hz := hpos z hzK
  have hglobal : ∀ y, (∀ k, 0 < slk α d k y ∧ T k y < slk α d k y ^ 2) → F z ≤ F y := by
    intro y hy'
    by_cases h : F y ≤ F y₁
    · exact hmin (hmem y hy' h)
    · exact (hmin hy₁).trans (not_le.1 h).le
  refine ⟨z, hz, fun u₀ => ?_⟩
  -- the derivative in the direction of `u₀`
  set h : Fin N → ℝ := Pi.single u₀ 1 with hh
  have hsum : ∀ f : Fin N → ℝ, ∑ u, h u * f u = f u₀ := fun f => by simp [hh, Pi.single_apply]
  have hslk : ∀ k t, slk α d k (z + t • h) = slk α d k z - t * α k u₀ := by
    intro k t
    have h1 := hsum (α k)
    unfold slk
    rw [← h1, mul_sum, sub_sub, ← sum_add_distrib]
    congr 1
    exact sum_congr rfl fun u _ => by
      simp only [Pi.add_apply, Pi.smul_apply, smul_eq_mul]
      ring
  set φ : ℝ → ℝ := fun t => F (z + t • h) with hφ
  have hloc : IsLocalMin φ 0 := by
    have h1 : ∀ᶠ t in nhds (0 : ℝ), ∀ k, 0 < slk α d k (z + t • h) ∧ T k (z + t • h) < slk α d k (z + t • h) ^ 2 := by
      rw [Filter.eventually_all]
      intro k
      have h2 : Continuous fun t : ℝ => slk α d k (z + t • h) := by
        have := slk_cont α d k
        fun_prop
      have h3 : Continuous fun t : ℝ => slk α d k (z + t • h) ^ 2 - T k (z + t • h) := by
        have := hDc k
        exact this.comp (by fun_prop : Continuous fun t : ℝ => z + t • h)
      have h4 := (h3.continuousAt (x := 0)).eventually (lt_mem_nhds (a := 0) (by simpa using (hz k).2))
      filter_upwards [h2.continuousAt.eventually (lt_mem_nhds (by simpa using (hz k).1)), h4] with t g1 g2
      exact ⟨g1, sub_pos.1 g2⟩
    filter_upwards [h1] with t ht
    simp only [hφ, zero_smul, add_zero]
    exact hglobal _ ht
  set B := ∑ v, Q u₀ v * (z - y₂) v with hB
  have hTe' : ∀ t k, T k (z + t • h) = T k z + t * E k u₀ z + t ^ 2 * C k u₀ := fun t k => hTe k u₀ z t
  have hPe' : ∀ t k, P k (z + t • h) = P k z + t * q k u₀ := fun t k => hPe k u₀ z t
  have hφ' : φ = fun t => (quad Q (z - y₂) + 2 * t * B + t ^ 2 * quad Q h) / 2 +
      ∑ k, ω k * ((P k z + t * q k u₀) - Real.log ((slk α d k z - t * α k u₀) ^ 2 -
        (T k z + t * E k u₀ z + t ^ 2 * C k u₀))) := by
    funext t
    simp only [hφ, hF]
    rw [show z + t • h - y₂ = (z - y₂) + t • h by abel, quad_add hsym, hsum]
    simp only [hslk, hTe' t, hPe' t]
    rfl
  have hder : HasDerivAt φ (B + ∑ k, ω k * (q k u₀ + (2 * slk α d k z * α k u₀ + E k u₀ z) /
      (slk α d k z ^ 2 - T k z))) 0 := by
    rw [hφ']
    refine HasDerivAt.add ?_ (HasDerivAt.fun_sum fun k _ => ?_)
    · have h1 : HasDerivAt (fun t : ℝ => (quad Q (z - y₂) + 2 * t * B + t ^ 2 * quad Q h) / 2)
          ((0 + 2 * 1 * B + (2 * (0 : ℝ) ^ (2 - 1) * 1) * quad Q h) / 2) 0 :=
        ((((hasDerivAt_id (0 : ℝ)).const_mul 2).mul_const B).const_add _ |>.add
          (((hasDerivAt_id (0 : ℝ)).pow 2).mul_const _)).div_const 2 |>.congr_deriv (by simp)
      exact h1.congr_deriv (by ring)
    · have h1 : HasDerivAt (fun t : ℝ => slk α d k z - t * α k u₀) (-(α k u₀)) 0 := by
        simpa using ((hasDerivAt_id (0 : ℝ)).mul_const (α k u₀)).const_sub (slk α d k z)
      have h2 : HasDerivAt (fun t : ℝ => P k z + t * q k u₀) (q k u₀) 0 := by
        simpa using ((hasDerivAt_id (0 : ℝ)).mul_const (q k u₀)).const_add (P k z)
      have h3 : HasDerivAt (fun t : ℝ => T k z + t * E k u₀ z + t ^ 2 * C k u₀) (E k u₀ z) 0 := by
        have := (((hasDerivAt_id (0 : ℝ)).mul_const (E k u₀ z)).const_add (T k z)).add
          (((hasDerivAt_id (0 : ℝ)).pow 2).mul_const (C k u₀))
        refine this.congr_deriv ?_
        simp
      have h4 := (h1.pow 2).sub h3
      refine ((h2.sub (h4.log ?_)).const_mul (ω k)).congr_deriv ?_
      · simpa using (sub_pos.2 (hz k).2).ne'
      · simp only [Pi.sub_apply, Pi.pow_apply, zero_mul, sub_zero, add_zero, ne_eq, OfNat.ofNat_ne_zero, not_false_eq_true,
          zero_pow, Nat.cast_ofNat, Nat.add_one_sub_one, pow_one]
        ring
  have := hloc.hasDerivAt_eq_zero hder
  have h3 : B = ∑ v, Q u₀ v * z v - ∑ v, Q u₀ v * y₂ v := by
    simp only [hB, Pi.sub_apply, mul_sub, sum_sub_distrib]
  linarith

end Verif.Centering.Barrier
