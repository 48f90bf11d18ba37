import Verif.Lemmas.CentralPoint

/-!
# Lemmas for C98: sums of potentials with bounded level sets have stationary points
-/

namespace Verif.Centering

open Finset

variable {N : Nat} {ι : Type} {dir : ι → Fin N → ℝ}

/-- A function `f` on a domain `D`, with derivatives `g` in the directions `dir`.  It is bounded from below; its level sets lie in closed
subsets of the domain, and a quadratic form `q` is bounded on them. -/
structure Potential {ι : Type} (dir : ι → Fin N → ℝ) (D : Set (Fin N → ℝ)) (f : (Fin N → ℝ) → ℝ)
    (g : ι → (Fin N → ℝ) → ℝ) (q : (Fin N → ℝ) → ℝ) : Prop where
  cont : ContinuousOn f D
  lower : ∃ m, ∀ y ∈ D, m ≤ f y
  levels : ∀ V, ∃ C ⊆ D, IsClosed C ∧ ∃ M, ∀ y ∈ D, f y ≤ V → y ∈ C ∧ q y ≤ M
  inner : ∀ z ∈ D, ∀ u, ∀ᶠ t : ℝ in nhds 0, z + t • dir u ∈ D
  deriv : ∀ z ∈ D, ∀ u, HasDerivAt (fun t : ℝ => f (z + t • dir u)) (g u z) 0
  form_cont : Continuous q
  form_nonneg : ∀ y, 0 ≤ q y
  form_smul : ∀ (a : ℝ) y, q (a • y) = a ^ 2 * q y

namespace Potential

variable {κ : Type} {D : κ → Set (Fin N → ℝ)} {f : κ → (Fin N → ℝ) → ℝ} {g : κ → ι → (Fin N → ℝ) → ℝ}
  {q : κ → (Fin N → ℝ) → ℝ}

theorem sum (s : Finset κ) (h : ∀ k ∈ s, Potential dir (D k) (f k) (g k) (q k)) :
    Potential dir {y | ∀ k ∈ s, y ∈ D k} (fun y => ∑ k ∈ s, f k y) (fun u y => ∑ k ∈ s, g k u y)
      (fun y => ∑ k ∈ s, q k y) := by
  classical
  have hlow : ∃ m : κ → ℝ, ∀ k ∈ s, ∀ y ∈ D k, m k ≤ f k y := by
    refine ⟨fun k => if hk : k ∈ s then (h k hk).lower.choose else 0, fun k hk => ?_⟩
    simp only [hk, dif_pos]
    exact (h k hk).lower.choose_spec
  obtain ⟨m, hm⟩ := hlow
  refine ⟨?_, ⟨∑ k ∈ s, m k, fun y hy => sum_le_sum fun k hk => hm k hk y (hy k hk)⟩, fun V => ?_, fun z hz u => ?_,
    fun z hz u => ?_, ?_, fun y => sum_nonneg fun k hk => (h k hk).form_nonneg y, fun a y => ?_⟩
  · exact continuousOn_finsetSum _ fun k hk => (h k hk).cont.mono fun y hy => hy k hk
  · have hlev : ∃ (C : κ → Set (Fin N → ℝ)) (M : κ → ℝ), ∀ k ∈ s, C k ⊆ D k ∧ IsClosed (C k) ∧
        ∀ y ∈ D k, f k y ≤ V - ∑ j ∈ s.erase k, m j → y ∈ C k ∧ q k y ≤ M k := by
      refine ⟨fun k => if hk : k ∈ s then ((h k hk).levels (V - ∑ j ∈ s.erase k, m j)).choose else ∅,
        fun k => if hk : k ∈ s then ((h k hk).levels (V - ∑ j ∈ s.erase k, m j)).choose_spec.2.2.choose else 0,
        fun k hk => ?_⟩
      simp only [hk, dif_pos]
      have := ((h k hk).levels (V - ∑ j ∈ s.erase k, m j)).choose_spec
      exact ⟨this.1, this.2.1, this.2.2.choose_spec⟩
    obtain ⟨C, M, hCM⟩ := hlev
    refine ⟨{y | ∀ k ∈ s, y ∈ C k}, fun y hy k hk => (hCM k hk).1 (hy k hk), ?_, ∑ k ∈ s, M k, fun y hy hV => ?_⟩
    · have e : {y | ∀ k ∈ s, y ∈ C k} = ⋂ k ∈ s, C k := by
        ext y
        simp
      rw [e]
      exact isClosed_biInter fun k hk => (hCM k hk).2.1
    · have h1 : ∀ k ∈ s, f k y ≤ V - ∑ j ∈ s.erase k, m j := fun k hk => by
        have h2 : ∑ j ∈ s.erase k, m j ≤ ∑ j ∈ s.erase k, f j y := sum_le_sum fun j hj =>
          hm j (mem_of_mem_erase hj) y (hy j (mem_of_mem_erase hj))
        have h3 := sum_erase_add s (fun k => f k y) hk
        linarith
      exact ⟨fun k hk => ((hCM k hk).2.2 y (hy k hk) (h1 k hk)).1,
        sum_le_sum fun k hk => ((hCM k hk).2.2 y (hy k hk) (h1 k hk)).2⟩
  · change ∀ᶠ t : ℝ in nhds 0, ∀ k ∈ s, z + t • dir u ∈ D k
    rw [Filter.eventually_all_finset]
    exact fun k hk => (h k hk).inner z (hz k hk) u
  · exact HasDerivAt.fun_sum fun k hk => (h k hk).deriv z (hz k hk) u
  · exact continuous_finsetSum _ fun k hk => (h k hk).form_cont
  · rw [mul_sum]
    exact sum_congr rfl fun k hk => (h k hk).form_smul a y

/-- Positive definite forms are bounded from below by the norm. -/
theorem coercive {q : (Fin N → ℝ) → ℝ} (hc : Continuous q) (hn : ∀ y, 0 ≤ q y)
    (hs : ∀ (a : ℝ) y, q (a • y) = a ^ 2 * q y) (hk : ∀ y, q y = 0 → y = 0) : ∃ δ > 0, ∀ y, δ * ‖y‖ ^ 2 ≤ q y := by
  by_cases hne : (Metric.sphere (0 : Fin N → ℝ) 1).Nonempty
  · obtain ⟨m, hm, hmin⟩ := (isCompact_sphere (0 : Fin N → ℝ) 1).exists_isMinOn hne hc.continuousOn
    have hm0 : m ≠ 0 := by
      rintro rfl
      simp at hm
    refine ⟨q m, lt_of_le_of_ne (hn m) fun h => hm0 (hk m h.symm), fun y => ?_⟩
    by_cases hy : y = 0
    · rw [hy, norm_zero]
      simpa using hn 0
    have hy0 : 0 < ‖y‖ := norm_pos_iff.2 hy
    have h1 : q (‖y‖⁻¹ • y) = (‖y‖⁻¹) ^ 2 * q y := hs _ _
    have h2 : q m ≤ q (‖y‖⁻¹ • y) := hmin (by simp [norm_smul, hy0.ne'])
    rw [h1] at h2
    calc q m * ‖y‖ ^ 2 ≤ (‖y‖⁻¹) ^ 2 * q y * ‖y‖ ^ 2 := mul_le_mul_of_nonneg_right h2 (by positivity)
      _ = q y := by field_simp
  · refine ⟨1, one_pos, fun y => ?_⟩
    have hy : y = 0 := by
      by_contra hy
      exact hne ⟨‖y‖⁻¹ • y, by simp [norm_smul, (norm_pos_iff.2 hy).ne']⟩
    rw [hy, norm_zero]
    simpa using hn 0

/-- A potential has a stationary point on a closed set `K` that contains the lines in the directions `dir`, if its form is
positive definite after addition of a form `p` that is bounded on `K`. -/
theorem stationary_on {D : Set (Fin N → ℝ)} {f : (Fin N → ℝ) → ℝ} {g : ι → (Fin N → ℝ) → ℝ} {q p : (Fin N → ℝ) → ℝ}
    (h : Potential dir D f g q) {K : Set (Fin N → ℝ)} (hK : IsClosed K) (hdir : ∀ z ∈ K, ∀ u (t : ℝ), z + t • dir u ∈ K)
    (hpc : Continuous p) (hpn : ∀ y, 0 ≤ p y) (hps : ∀ (a : ℝ) y, p (a • y) = a ^ 2 * p y) {P : ℝ} (hP : ∀ y ∈ K, p y ≤ P)
    (hk : ∀ y, q y = 0 → p y = 0 → y = 0) {y₁ : Fin N → ℝ} (hy : y₁ ∈ D) (hyK : y₁ ∈ K) :
    ∃ z ∈ D, z ∈ K ∧ ∀ u, g u z = 0 := by
  obtain ⟨δ, hδ, hco⟩ := coercive (q := fun y => q y + p y) (h.form_cont.add hpc)
    (fun y => add_nonneg (h.form_nonneg y) (hpn y)) (fun a y => by rw [h.form_smul, hps]; ring)
    (fun y hy0 => hk y (by linarith [h.form_nonneg y, hpn y]) (by linarith [h.form_nonneg y, hpn y]))
  obtain ⟨C, hCD, hC, M, hM⟩ := h.levels (f y₁)
  have hclosed : IsClosed (C ∩ {y | q y ≤ M} ∩ K) := (hC.inter (isClosed_le h.form_cont continuous_const)).inter hK
  have hbdd : Bornology.IsBounded (C ∩ {y | q y ≤ M} ∩ K) := by
    refine (Metric.isBounded_closedBall (x := (0 : Fin N → ℝ)) (r := Real.sqrt ((M + P) / δ))).subset fun y hyC => ?_
    rw [mem_closedBall_zero_iff]
    refine Real.le_sqrt_of_sq_le ?_
    rw [le_div_iff₀ hδ, mul_comm]
    exact (hco y).trans (add_le_add hyC.1.2 (hP y hyC.2))
  obtain ⟨z, hzC, hmin⟩ := (Metric.isCompact_of_isClosed_isBounded hclosed hbdd).exists_isMinOn
    ⟨y₁, hM y₁ hy le_rfl, hyK⟩ (h.cont.mono fun y hy => hCD hy.1.1)
  have hz : z ∈ D := hCD hzC.1.1
  have hglobal : ∀ y ∈ D, y ∈ K → f z ≤ f y := fun y hyD hyK' => by
    by_cases hle : f y ≤ f y₁
    · exact hmin ⟨hM y hyD hle, hyK'⟩
    · exact (hmin ⟨hM y₁ hy le_rfl, hyK⟩).trans (not_le.1 hle).le
  refine ⟨z, hz, hzC.2, fun u => ?_⟩
  have hloc : IsLocalMin (fun t : ℝ => f (z + t • dir u)) 0 := by
    filter_upwards [h.inner z hz u] with t ht
    simp only [zero_smul, add_zero]
    exact hglobal _ ht (hdir z hzC.2 u t)
  exact hloc.hasDerivAt_eq_zero (h.deriv z hz u)

end Potential

end Verif.Centering
