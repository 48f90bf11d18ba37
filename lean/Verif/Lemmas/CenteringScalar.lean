import Mathlib.Analysis.SpecialFunctions.ExpDeriv
import Mathlib.Analysis.Calculus.Deriv.Pow
import Mathlib.Analysis.Calculus.Deriv.MeanValue
import Mathlib.Tactic.Linarith
import Mathlib.Tactic.Positivity
import Mathlib.Tactic.LinearCombination

/-!
# Lemmas for C88: inequalities for one component of a step
-/

namespace Verif.Centering

/-- An upper bound of the exponential of a negative number. -/
theorem exp_neg_le {a : ℝ} (ha : 0 ≤ a) : Real.exp (-a) ≤ 1 - a + a ^ 2 / 2 - a ^ 3 / 6 + a ^ 4 / 24 := by
  have hmono : MonotoneOn (fun x : ℝ => (1 - x + x ^ 2 / 2 - x ^ 3 / 6 + x ^ 4 / 24) * Real.exp x) (Set.Ici 0) := by
    have hd : ∀ x : ℝ, HasDerivAt (fun x : ℝ => (1 - x + x ^ 2 / 2 - x ^ 3 / 6 + x ^ 4 / 24) * Real.exp x)
        ((-1 + x - x ^ 2 / 2 + x ^ 3 / 6) * Real.exp x + (1 - x + x ^ 2 / 2 - x ^ 3 / 6 + x ^ 4 / 24) * Real.exp x) x := by
      intro x
      refine HasDerivAt.mul ?_ (Real.hasDerivAt_exp x)
      have := ((((hasDerivAt_const x (1 : ℝ)).sub (hasDerivAt_id x)).add ((hasDerivAt_pow 2 x).div_const 2)).sub
        ((hasDerivAt_pow 3 x).div_const 6)).add ((hasDerivAt_pow 4 x).div_const 24)
      refine this.congr_deriv ?_
      push_cast
      ring
    refine monotoneOn_of_deriv_nonneg (convex_Ici 0) (fun x _ => (hd x).continuousAt.continuousWithinAt)
      (fun x _ => (hd x).differentiableAt.differentiableWithinAt) fun x _ => ?_
    rw [(hd x).deriv]
    have := Real.exp_pos x
    have e : (-1 + x - x ^ 2 / 2 + x ^ 3 / 6) * Real.exp x + (1 - x + x ^ 2 / 2 - x ^ 3 / 6 + x ^ 4 / 24) * Real.exp x =
      x ^ 4 / 24 * Real.exp x := by ring
    rw [e]
    positivity
  have h := hmono (Set.mem_Ici.2 le_rfl) (Set.mem_Ici.2 ha) ha
  simp only [Real.exp_zero] at h
  rw [Real.exp_neg, inv_le_iff_one_le_mul₀ (Real.exp_pos a)]
  linarith

/-- An upper bound of the exponential. -/
theorem exp_le {a : ℝ} (ha : 0 ≤ a) (ha' : a ≤ 17 / 12) :
    Real.exp a ≤ 1 + a + a ^ 2 / 2 + a ^ 3 / 6 + a ^ 4 / 24 + a ^ 5 / 86 := by
  have hmono : MonotoneOn (fun x : ℝ => (1 + x + x ^ 2 / 2 + x ^ 3 / 6 + x ^ 4 / 24 + x ^ 5 / 86) * Real.exp (-x))
      (Set.Icc 0 (17 / 12)) := by
    have hd : ∀ x : ℝ, HasDerivAt
        (fun x : ℝ => (1 + x + x ^ 2 / 2 + x ^ 3 / 6 + x ^ 4 / 24 + x ^ 5 / 86) * Real.exp (-x))
        ((1 + x + x ^ 2 / 2 + x ^ 3 / 6 + 5 * x ^ 4 / 86) * Real.exp (-x) +
          (1 + x + x ^ 2 / 2 + x ^ 3 / 6 + x ^ 4 / 24 + x ^ 5 / 86) * (Real.exp (-x) * -1)) x := by
      intro x
      refine HasDerivAt.mul ?_ ((Real.hasDerivAt_exp (-x)).comp x (hasDerivAt_neg x))
      have := (((((hasDerivAt_const x (1 : ℝ)).add (hasDerivAt_id x)).add ((hasDerivAt_pow 2 x).div_const 2)).add
        ((hasDerivAt_pow 3 x).div_const 6)).add ((hasDerivAt_pow 4 x).div_const 24)).add ((hasDerivAt_pow 5 x).div_const 86)
      refine this.congr_deriv ?_
      push_cast
      ring
    refine monotoneOn_of_deriv_nonneg (convex_Icc 0 _) (fun x _ => (hd x).continuousAt.continuousWithinAt)
      (fun x _ => (hd x).differentiableAt.differentiableWithinAt) fun x hx => ?_
    rw [interior_Icc] at hx
    rw [(hd x).deriv]
    have := Real.exp_pos (-x)
    have e : (1 + x + x ^ 2 / 2 + x ^ 3 / 6 + 5 * x ^ 4 / 86) * Real.exp (-x) +
        (1 + x + x ^ 2 / 2 + x ^ 3 / 6 + x ^ 4 / 24 + x ^ 5 / 86) * (Real.exp (-x) * -1) =
      x ^ 4 * (17 / 1032 - x / 86) * Real.exp (-x) := by ring
    rw [e]
    have h1 : 0 ≤ 17 / 1032 - x / 86 := by linarith [hx.2]
    positivity
  have h := hmono (Set.mem_Icc.2 ⟨le_rfl, by norm_num⟩) (Set.mem_Icc.2 ⟨ha, ha'⟩) ha
  simp only [neg_zero, Real.exp_zero] at h
  rw [Real.exp_neg, ← div_eq_mul_inv, le_div_iff₀ (Real.exp_pos a)] at h
  linarith

/-- Arithmetic and geometric mean. -/
theorem am_gm {α β ρ : ℝ} (hα : 0 ≤ α) (hβ : 0 ≤ β) (h : 0 ≤ ρ → ρ ^ 2 ≤ α * β) : 2 * ρ ≤ α + β := by
  rcases le_total 0 ρ with h0 | h0
  · have := h h0
    refine le_of_sq_le_sq ?_ (by linarith)
    nlinarith [sq_nonneg (α - β)]
  · linarith

/-- The polynomial inequality behind `component_below`. -/
theorem poly {t σ a h Y p e R : ℝ} (ht : 0 < t) (ht' : t ≤ 1) (hσ0 : 0 ≤ σ) (hσ1 : σ ≤ 1) (ha0 : 0 ≤ a)
    (ha1 : a ≤ 17 / 12) (haa : a ^ 2 = 2 * t * σ) (hσh : σ ≤ h) (hY : Y = 1 - σ + t / 3 - t * σ ^ 2 / 6)
    (hp : p = (1 - σ) * a / 3) (he : e = 4 * t * σ ^ 2 * a / 86) (hR : R = 1 + t / 3 - 9 / 10 * h - σ / 3) :
    0 ≤ Y - p ∧ 0 ≤ Y + p - e ∧ (0 ≤ R → R ^ 2 ≤ (Y - p) * (Y + p - e)) := by
  have hσ2 : σ ^ 2 ≤ σ := by nlinarith
  have hts : t * σ ^ 2 ≤ σ ^ 2 := by nlinarith [sq_nonneg σ]
  have hts0 : 0 ≤ t * σ ^ 2 := by positivity
  have hts' : t * σ ^ 2 ≤ t := by nlinarith
  have hY1 : 1 - σ + t / 6 ≤ Y := by rw [hY]; linarith
  have hY0 : 1 - σ ≤ Y := by linarith
  have hYn : 0 ≤ Y := by linarith
  have hs' : 0 ≤ 1 - σ := by linarith
  have hp0 : 0 ≤ p := by rw [hp]; positivity
  have hp1 : p ≤ 1 - σ := by
    rw [hp]
    have := mul_le_mul_of_nonneg_left ha1 hs'
    linarith
  have he0 : 0 ≤ e := by rw [he]; positivity
  have he1 : e ≤ 17 / 258 * (t * σ ^ 2) := by
    rw [he]
    have := mul_le_mul_of_nonneg_left ha1 hts0
    linarith
  have he2 : e ≤ 17 / 258 * σ ^ 2 := by linarith
  have hYe : e ≤ Y := by linarith
  refine ⟨by linarith, by linarith, fun hR0 => ?_⟩
  have hdiff : 7 / 30 * σ - σ ^ 2 / 6 ≤ Y - R := by rw [hR, hY]; linarith
  have hpp : p ^ 2 ≤ 2 / 9 * σ * (1 - σ) ^ 2 := by
    have h1 : p ^ 2 = 2 / 9 * t * σ * (1 - σ) ^ 2 := by
      rw [hp, div_pow, mul_pow, haa]
      ring
    have h2 : 0 ≤ σ * (1 - σ) ^ 2 := by positivity
    have h3 := mul_le_mul_of_nonneg_right ht' h2
    rw [h1]
    linarith
  have h1 : 2 / 9 * σ * (1 - σ) ^ 2 ≤ Y * (7 / 30 * σ - σ ^ 2 / 6 - e) := by
    have h2 : σ * (2 / 9 * (1 - σ)) ≤ 7 / 30 * σ - σ ^ 2 / 6 - e := by linarith
    have h3 : 0 ≤ σ * (2 / 9 * (1 - σ)) := mul_nonneg hσ0 (by linarith)
    calc 2 / 9 * σ * (1 - σ) ^ 2 = (1 - σ) * (σ * (2 / 9 * (1 - σ))) := by ring
      _ ≤ Y * (7 / 30 * σ - σ ^ 2 / 6 - e) := mul_le_mul hY0 h2 h3 hYn
  have hRY : R ^ 2 ≤ Y * (Y - (7 / 30 * σ - σ ^ 2 / 6)) := by
    have h8 : 0 ≤ 7 / 30 * σ - σ ^ 2 / 6 := by linarith
    have h4 : R ≤ Y := by linarith
    calc R ^ 2 = R * R := by ring
      _ ≤ Y * (Y - (7 / 30 * σ - σ ^ 2 / 6)) := mul_le_mul h4 (by linarith) hR0 hYn
  have h5 := mul_nonneg hp0 he0
  have h6 : (Y - p) * (Y + p - e) = Y ^ 2 - p ^ 2 - e * Y + p * e := by ring
  rw [h6]
  linarith

/-- The factors of a step in a nonnegative direction: they are below these polynomials, like the exponential. -/
def Below (a e e' : ℝ) : Prop :=
  e ≤ 1 + a + a ^ 2 / 2 + a ^ 3 / 6 + a ^ 4 / 24 + a ^ 5 / 86 ∧ e' ≤ 1 - a + a ^ 2 / 2 - a ^ 3 / 6 + a ^ 4 / 24

/-- The length of a step. -/
theorem length_le {t d : ℝ} (ht : 0 < t) (ht' : t ≤ 1) (htd : t * d ^ 2 ≤ 2) : t * d ≤ 17 / 12 := by
  refine le_of_sq_le_sq ?_ (by norm_num)
  have : (t * d) ^ 2 = t * (t * d ^ 2) := by ring
  rw [this]
  nlinarith

theorem exp_below {t d : ℝ} (ht : 0 < t) (ht' : t ≤ 1) (hd : 0 ≤ d) (htd : t * d ^ 2 ≤ 2) :
    Below (t * d) (Real.exp (t * d)) (Real.exp (-(t * d))) :=
  ⟨exp_le (by positivity) (length_le ht ht' htd), exp_neg_le (by positivity)⟩

/-- One component of a step, for a nonnegative direction. -/
theorem component_below {t d ω e₁ e₂ : ℝ} (ht : 0 < t) (ht' : t ≤ 1) (hd : 0 ≤ d) (htd : t * d ^ 2 ≤ 2)
    (he : Below (t * d) e₁ e₂) :
    (e₂ - 1 ≤ (t + t ^ 2 / 3) * (1 - d) ∧ e₁ - 1 ≤ (t + t ^ 2 / 3) * (1 + d)) ∧ (0 < ω →
    ω * (e₂ - 1) + (e₁ - 1) / ω ≤
      (t + t ^ 2 / 3) * (ω * (1 - d) + (1 + d) / ω - 2) + (t + t ^ 2 / 3 - t / 10) * d ^ 2) := by
  have ha0 : 0 ≤ t * d := by positivity
  have ha1 := length_le ht ht' htd
  obtain ⟨h2, h1⟩ := he
  obtain ⟨Y, hY⟩ : ∃ Y, Y = 1 - t * d ^ 2 / 2 + t / 3 - t * (t * d ^ 2 / 2) ^ 2 / 6 := ⟨_, rfl⟩
  obtain ⟨p, hp⟩ : ∃ p, p = (1 - t * d ^ 2 / 2) * (t * d) / 3 := ⟨_, rfl⟩
  obtain ⟨e, he⟩ : ∃ e, e = 4 * t * (t * d ^ 2 / 2) ^ 2 * (t * d) / 86 := ⟨_, rfl⟩
  obtain ⟨g1, g2, g3⟩ := poly (h := d ^ 2 / 2) (R := 1 + t / 3 - (9 / 10 + t / 3) * (d ^ 2 / 2)) ht ht'
    (by positivity) (by linarith) ha0 ha1 (by ring) (by nlinarith [sq_nonneg d]) hY hp he (by ring)
  have hA : t * (Y - p) ≤ (t + t ^ 2 / 3) * (1 - d) + 1 - e₂ := by
    refine le_trans (le_of_eq ?_) (sub_le_sub_left h1 _)
    rw [hY, hp]
    ring
  have hB : t * (Y + p - e) ≤ (t + t ^ 2 / 3) * (1 + d) + 1 - e₁ := by
    refine le_trans (le_of_eq ?_) (sub_le_sub_left h2 _)
    rw [hY, hp, he]
    ring
  refine ⟨⟨by linarith [mul_nonneg ht.le g1], by linarith [mul_nonneg ht.le g2]⟩, fun hω => ?_⟩
  have hkey := am_gm (α := ω * (Y - p)) (β := (Y + p - e) / ω) (mul_nonneg hω.le g1) (div_nonneg g2 hω.le)
    (ρ := 1 + t / 3 - (9 / 10 + t / 3) * (d ^ 2 / 2)) fun h => by
      refine (g3 h).trans (le_of_eq ?_)
      field_simp
  have h3 : ω * (t * (Y - p)) ≤ ω * ((t + t ^ 2 / 3) * (1 - d) + 1 - e₂) :=
    mul_le_mul_of_nonneg_left hA hω.le
  have h4 : t * (Y + p - e) / ω ≤ ((t + t ^ 2 / 3) * (1 + d) + 1 - e₁) / ω :=
    div_le_div_of_nonneg_right hB hω.le
  have h5 : t * (2 * (1 + t / 3 - (9 / 10 + t / 3) * (d ^ 2 / 2))) ≤ t * (ω * (Y - p) + (Y + p - e) / ω) :=
    mul_le_mul_of_nonneg_left hkey ht.le
  have e1 : (t + t ^ 2 / 3) * (ω * (1 - d) + (1 + d) / ω - 2) + (t + t ^ 2 / 3 - t / 10) * d ^ 2 -
      (ω * (e₂ - 1) + (e₁ - 1) / ω) =
      ω * ((t + t ^ 2 / 3) * (1 - d) + 1 - e₂) +
      ((t + t ^ 2 / 3) * (1 + d) + 1 - e₁) / ω -
      t * (2 * (1 + t / 3 - (9 / 10 + t / 3) * (d ^ 2 / 2))) := by
    field_simp
    ring
  have e2 : t * (ω * (Y - p) + (Y + p - e) / ω) = ω * (t * (Y - p)) + t * (Y + p - e) / ω := by
    rw [mul_add, mul_div_assoc]
    ring
  linarith

/-- The factors of a step. -/
def Factors (a r r' : ℝ) : Prop := (0 ≤ a → Below a r r') ∧ (a ≤ 0 → Below (-a) r' r)

theorem exp_factors {t d : ℝ} (ht : 0 < t) (ht' : t ≤ 1) (htd : t * d ^ 2 ≤ 2) :
    Factors (t * d) (Real.exp (t * d)) (Real.exp (-(t * d))) := by
  refine ⟨fun h => exp_below ht ht' (nonneg_of_mul_nonneg_right h ht) htd, fun h => ?_⟩
  have h1 := exp_below (d := -d) ht ht' (by nlinarith) (by rw [neg_sq]; exact htd)
  rw [mul_neg, neg_neg] at h1
  exact h1

/-- One component of a step of size `t` in direction `d`, where the product of the two weights is at least one. -/
theorem component_factors {t d α β r r' : ℝ} (ht : 0 < t) (ht' : t ≤ 1) (htd : t * d ^ 2 ≤ 2)
    (h : Factors (t * d) r r') (hα : 0 < α) (hαβ : 1 ≤ α * β) :
    β * (r' - 1) + α * (r - 1) ≤
      (t + t ^ 2 / 3) * (β * (1 - d) + α * (1 + d) - 2) + (t + t ^ 2 / 3 - t / 10) * d ^ 2 := by
  have h2 : 0 ≤ β - α⁻¹ := by
    rw [sub_nonneg, inv_le_iff_one_le_mul₀ hα, mul_comm]
    exact hαβ
  rcases le_total 0 d with hd | hd
  · obtain ⟨⟨g1, -⟩, g2⟩ := component_below (ω := α⁻¹) ht ht' hd htd (h.1 (by positivity))
    have g2 := g2 (inv_pos.2 hα)
    rw [div_inv_eq_mul, div_inv_eq_mul] at g2
    have h3 := mul_le_mul_of_nonneg_left g1 h2
    nlinarith
  · have hn := h.2 (by nlinarith)
    rw [← mul_neg] at hn
    obtain ⟨⟨-, g1⟩, g2⟩ := component_below (ω := α) ht ht' (neg_nonneg.2 hd) (by rw [neg_sq]; exact htd) hn
    have g2 := g2 hα
    rw [neg_sq, div_eq_inv_mul, div_eq_inv_mul (1 + -d), sub_neg_eq_add] at g2
    have h3 := mul_le_mul_of_nonneg_left g1 h2
    nlinarith

/-- One component of a step of size `t` in direction `d`, where `ω` is the ratio of the central scaling point to the
present one. -/
theorem component {t d ω : ℝ} (ht : 0 < t) (ht' : t ≤ 1) (htd : t * d ^ 2 ≤ 2) (hω : 0 < ω) :
    ω * (Real.exp (-(t * d)) - 1) + (Real.exp (t * d) - 1) / ω ≤
      (t + t ^ 2 / 3) * (ω * (1 - d) + (1 + d) / ω - 2) + (t + t ^ 2 / 3 - t / 10) * d ^ 2 := by
  have h := component_factors (α := ω⁻¹) (β := ω) ht ht' htd (exp_factors ht ht' htd) (inv_pos.2 hω)
    (by rw [inv_mul_cancel₀ hω.ne'])
  calc _ = ω * (Real.exp (-(t * d)) - 1) + ω⁻¹ * (Real.exp (t * d) - 1) := by ring
    _ ≤ _ := h
    _ = _ := by ring

end Verif.Centering
