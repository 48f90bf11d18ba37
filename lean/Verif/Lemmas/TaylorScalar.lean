import Verif.Lemmas.CenteringScalar

/-!
# Lemmas for C97: one component of a step with the Taylor polynomial
-/

namespace Verif.Centering

/-- The factor of a step. -/
noncomputable def tay (a : ℝ) : ℝ := (1 + a / 4 + a ^ 2 / 32) ^ 4

theorem tay_pos (a : ℝ) : 0 < tay a := by
  have : 0 < 1 + a / 4 + a ^ 2 / 32 := by nlinarith [sq_nonneg (a + 4)]
  unfold tay
  positivity

/-- The reciprocal of the factor is below the factor of the opposite step. -/
theorem tay_inv (a : ℝ) : (tay a)⁻¹ ≤ tay (-a) := by
  rw [inv_le_iff_one_le_mul₀ (tay_pos a)]
  have e : tay (-a) * tay a = (1 + a ^ 4 / 1024) ^ 4 := by
    unfold tay
    ring
  rw [e]
  exact one_le_pow₀ (by nlinarith [sq_nonneg (a ^ 2)])

theorem tay_le {a : ℝ} (h0 : 0 ≤ a) (h1 : a ≤ 17 / 12) :
    tay a ≤ 1 + a + a ^ 2 / 2 + 5 * a ^ 3 / 32 + 17 * a ^ 4 / 512 + a ^ 5 / 160 := by
  have e : 1 + a + a ^ 2 / 2 + 5 * a ^ 3 / 32 + 17 * a ^ 4 / 512 + a ^ 5 / 160 - tay a =
      a ^ 5 * (7 / 5120 - a / 2048 - a ^ 2 / 32768 - a ^ 3 / 1048576) := by
    unfold tay
    ring
  have h2 : a ^ 2 ≤ 4 := by nlinarith
  have h3 : a ^ 3 ≤ 8 := by nlinarith [mul_nonneg h0 (sub_nonneg.2 h2)]
  have h4 : 0 ≤ 7 / 5120 - a / 2048 - a ^ 2 / 32768 - a ^ 3 / 1048576 := by linarith
  have := mul_nonneg (pow_nonneg h0 5) h4
  linarith

theorem tay_neg_le {a : ℝ} (h0 : 0 ≤ a) (h1 : a ≤ 17 / 12) :
    tay (-a) ≤ 1 - a + a ^ 2 / 2 - 5 * a ^ 3 / 32 + 17 * a ^ 4 / 512 := by
  have e : 1 - a + a ^ 2 / 2 - 5 * a ^ 3 / 32 + 17 * a ^ 4 / 512 - tay (-a) =
      a ^ 5 * (5 / 1024 - a / 2048 + a ^ 2 * (1 / 32768 - a / 1048576)) := by
    unfold tay
    ring
  have h4 : 0 ≤ 5 / 1024 - a / 2048 + a ^ 2 * (1 / 32768 - a / 1048576) := by
    have : 0 ≤ a ^ 2 * (1 / 32768 - a / 1048576) := mul_nonneg (sq_nonneg _) (by linarith)
    linarith
  have := mul_nonneg (pow_nonneg h0 5) h4
  linarith

/-- The polynomial inequality behind `taylor_below`. -/
theorem taylor_poly {t σ a h Y p e R : ℝ} (ht : 0 < t) (ht' : t ≤ 1) (hσ0 : 0 ≤ σ) (hσ1 : σ ≤ 1) (ha0 : 0 ≤ a)
    (ha1 : a ≤ 17 / 12) (haa : a ^ 2 = 2 * t * σ) (hσh : σ ≤ h) (hY : Y = 1 - σ + 5 * t / 16 - 17 * t * σ ^ 2 / 128)
    (hp : p = 5 * (1 - σ) * a / 16) (he : e = 4 * t * σ ^ 2 * a / 160) (hR : R = 1 + 5 * t / 16 - 9 / 10 * h - 5 * σ / 16) :
    0 ≤ Y - p ∧ 0 ≤ Y + p - e ∧ (0 ≤ R → R ^ 2 ≤ (Y - p) * (Y + p - e)) := by
  have hσ2 : σ ^ 2 ≤ σ := by nlinarith
  have hts : t * σ ^ 2 ≤ σ ^ 2 := by nlinarith [sq_nonneg σ]
  have hts0 : 0 ≤ t * σ ^ 2 := by positivity
  have hts' : t * σ ^ 2 ≤ t := by nlinarith
  have hY1 : 1 - σ + t / 6 ≤ Y := by rw [hY]; linarith
  have hY0 : 1 - σ ≤ Y := by linarith
  have hYn : 0 ≤ Y := by linarith
  have hs' : 0 ≤ 1 - σ := by linarith
  have hp0 : 0 ≤ p := by rw [hp]; positivity
  have hp1 : p ≤ 1 - σ := by
    rw [hp]
    have := mul_le_mul_of_nonneg_left ha1 hs'
    linarith
  have he0 : 0 ≤ e := by rw [he]; positivity
  have he1 : e ≤ 17 / 480 * (t * σ ^ 2) := by
    rw [he]
    have := mul_le_mul_of_nonneg_left ha1 hts0
    linarith
  have he2 : e ≤ 17 / 480 * σ ^ 2 := by linarith
  have hYe : e ≤ Y := by linarith
  refine ⟨by linarith, by linarith, fun hR0 => ?_⟩
  have hdiff : 17 / 80 * σ - 17 / 128 * σ ^ 2 ≤ Y - R := by rw [hR, hY]; linarith
  have hpp : p ^ 2 ≤ 25 / 128 * σ * (1 - σ) ^ 2 := by
    have h1 : p ^ 2 = 25 / 128 * t * σ * (1 - σ) ^ 2 := by
      rw [hp, div_pow, mul_pow, haa]
      ring
    have h2 : 0 ≤ σ * (1 - σ) ^ 2 := by positivity
    have h3 := mul_le_mul_of_nonneg_right ht' h2
    rw [h1]
    linarith
  have h1 : 25 / 128 * σ * (1 - σ) ^ 2 ≤ Y * (17 / 80 * σ - 17 / 128 * σ ^ 2 - e) := by
    have h2 : σ * (25 / 128 * (1 - σ)) ≤ 17 / 80 * σ - 17 / 128 * σ ^ 2 - e := by linarith
    have h3 : 0 ≤ σ * (25 / 128 * (1 - σ)) := mul_nonneg hσ0 (by linarith)
    calc 25 / 128 * σ * (1 - σ) ^ 2 = (1 - σ) * (σ * (25 / 128 * (1 - σ))) := by ring
      _ ≤ Y * (17 / 80 * σ - 17 / 128 * σ ^ 2 - e) := mul_le_mul hY0 h2 h3 hYn
  have hRY : R ^ 2 ≤ Y * (Y - (17 / 80 * σ - 17 / 128 * σ ^ 2)) := by
    have h8 : 0 ≤ 17 / 80 * σ - 17 / 128 * σ ^ 2 := by linarith
    have h4 : R ≤ Y := by linarith
    calc R ^ 2 = R * R := by ring
      _ ≤ Y * (Y - (17 / 80 * σ - 17 / 128 * σ ^ 2)) := mul_le_mul h4 (by linarith) hR0 hYn
  have h5 := mul_nonneg hp0 he0
  have h6 : (Y - p) * (Y + p - e) = Y ^ 2 - p ^ 2 - e * Y + p * e := by ring
  rw [h6]
  linarith

/-- One component of a step, for a nonnegative direction. -/
theorem taylor_below {t d ω e₁ e₂ : ℝ} (ht : 0 < t) (ht' : t ≤ 1) (hd : 0 ≤ d) (htd : t * d ^ 2 ≤ 2)
    (h2 : e₁ ≤ tay (t * d)) (h1 : e₂ ≤ tay (-(t * d))) :
    (e₂ - 1 ≤ (t + 5 / 16 * t ^ 2) * (1 - d) ∧ e₁ - 1 ≤ (t + 5 / 16 * t ^ 2) * (1 + d)) ∧ (0 < ω →
    ω * (e₂ - 1) + (e₁ - 1) / ω ≤
      (t + 5 / 16 * t ^ 2) * (ω * (1 - d) + (1 + d) / ω - 2) + (t + 5 / 16 * t ^ 2 - t / 10) * d ^ 2) := by
  have ha0 : 0 ≤ t * d := by positivity
  have ha1 := length_le ht ht' htd
  have h2 := h2.trans (tay_le ha0 ha1)
  have h1 := h1.trans (tay_neg_le ha0 ha1)
  obtain ⟨Y, hY⟩ : ∃ Y, Y = 1 - t * d ^ 2 / 2 + 5 * t / 16 - 17 * t * (t * d ^ 2 / 2) ^ 2 / 128 := ⟨_, rfl⟩
  obtain ⟨p, hp⟩ : ∃ p, p = 5 * (1 - t * d ^ 2 / 2) * (t * d) / 16 := ⟨_, rfl⟩
  obtain ⟨e, he⟩ : ∃ e, e = 4 * t * (t * d ^ 2 / 2) ^ 2 * (t * d) / 160 := ⟨_, rfl⟩
  obtain ⟨g1, g2, g3⟩ := taylor_poly (h := d ^ 2 / 2) (R := 1 + 5 * t / 16 - (9 / 10 + 5 * t / 16) * (d ^ 2 / 2)) ht ht'
    (by positivity) (by linarith) ha0 ha1 (by ring) (by nlinarith [sq_nonneg d]) hY hp he (by ring)
  have hA : t * (Y - p) ≤ (t + 5 / 16 * t ^ 2) * (1 - d) + 1 - e₂ := by
    refine le_trans (le_of_eq ?_) (sub_le_sub_left h1 _)
    rw [hY, hp]
    ring
  have hB : t * (Y + p - e) ≤ (t + 5 / 16 * t ^ 2) * (1 + d) + 1 - e₁ := by
    refine le_trans (le_of_eq ?_) (sub_le_sub_left h2 _)
    rw [hY, hp, he]
    ring
  refine ⟨⟨by linarith [mul_nonneg ht.le g1], by linarith [mul_nonneg ht.le g2]⟩, fun hω => ?_⟩
  have hkey := am_gm (α := ω * (Y - p)) (β := (Y + p - e) / ω) (mul_nonneg hω.le g1) (div_nonneg g2 hω.le)
    (ρ := 1 + 5 * t / 16 - (9 / 10 + 5 * t / 16) * (d ^ 2 / 2)) fun h => by
      refine (g3 h).trans (le_of_eq ?_)
      field_simp
  have h3 : ω * (t * (Y - p)) ≤ ω * ((t + 5 / 16 * t ^ 2) * (1 - d) + 1 - e₂) :=
    mul_le_mul_of_nonneg_left hA hω.le
  have h4 : t * (Y + p - e) / ω ≤ ((t + 5 / 16 * t ^ 2) * (1 + d) + 1 - e₁) / ω :=
    div_le_div_of_nonneg_right hB hω.le
  have h5 : t * (2 * (1 + 5 * t / 16 - (9 / 10 + 5 * t / 16) * (d ^ 2 / 2))) ≤ t * (ω * (Y - p) + (Y + p - e) / ω) :=
    mul_le_mul_of_nonneg_left hkey ht.le
  have e1 : (t + 5 / 16 * t ^ 2) * (ω * (1 - d) + (1 + d) / ω - 2) + (t + 5 / 16 * t ^ 2 - t / 10) * d ^ 2 -
      (ω * (e₂ - 1) + (e₁ - 1) / ω) =
      ω * ((t + 5 / 16 * t ^ 2) * (1 - d) + 1 - e₂) +
      ((t + 5 / 16 * t ^ 2) * (1 + d) + 1 - e₁) / ω -
      t * (2 * (1 + 5 * t / 16 - (9 / 10 + 5 * t / 16) * (d ^ 2 / 2))) := by
    field_simp
    ring
  have e2 : t * (ω * (Y - p) + (Y + p - e) / ω) = ω * (t * (Y - p)) + t * (Y + p - e) / ω := by
    rw [mul_add, mul_div_assoc]
    ring
  linarith

/-- One component of a step of size `t` in direction `d`, where the product of the two weights is at least one. -/
theorem component_taylor {t d α β : ℝ} (ht : 0 < t) (ht' : t ≤ 1) (htd : t * d ^ 2 ≤ 2) (hα : 0 < α) (hαβ : 1 ≤ α * β) :
    β * ((tay (t * d))⁻¹ - 1) + α * (tay (t * d) - 1) ≤
      (t + 5 / 16 * t ^ 2) * (β * (1 - d) + α * (1 + d) - 2) + (t + 5 / 16 * t ^ 2 - t / 10) * d ^ 2 := by
  have h2 : 0 ≤ β - α⁻¹ := by
    rw [sub_nonneg, inv_le_iff_one_le_mul₀ hα, mul_comm]
    exact hαβ
  rcases le_total 0 d with hd | hd
  · obtain ⟨⟨g1, -⟩, g2⟩ := taylor_below (ω := α⁻¹) ht ht' hd htd le_rfl (tay_inv _)
    have g2 := g2 (inv_pos.2 hα)
    rw [div_inv_eq_mul, div_inv_eq_mul] at g2
    have h3 := mul_le_mul_of_nonneg_left g1 h2
    nlinarith
  · have e : -(t * -d) = t * d := by ring
    have e' : -(t * d) = t * -d := by ring
    obtain ⟨⟨-, g1⟩, g2⟩ := taylor_below (ω := α) (e₁ := (tay (t * d))⁻¹) (e₂ := tay (t * d)) ht ht' (neg_nonneg.2 hd)
      (by rw [neg_sq]; exact htd) (e' ▸ tay_inv _) (by rw [e])
    have g2 := g2 hα
    rw [neg_sq, div_eq_inv_mul, div_eq_inv_mul (1 + -d), sub_neg_eq_add] at g2
    have h3 := mul_le_mul_of_nonneg_left g1 h2
    nlinarith

end Verif.Centering
