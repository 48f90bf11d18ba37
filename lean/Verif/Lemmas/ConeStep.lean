import Verif.Lemmas.ConeCell

/-!
# Lemmas for C92: the two inequalities of a step in one cell
-/

namespace Verif.Spin

open Soc Spec Soc.Spec
open ConeCentering.Spec (det inverse)

variable {B : (Nat → ℝ) → (Nat → ℝ) → ℝ}

/-- The frame of a multiple. -/
theorem Frame.of_smul (hB : IsForm B) {u : Nat → ℝ} {x : El ℝ} {t a b : ℝ} (ht : t ≠ 0)
    (h : Frame B u (smul t x) a b) : Frame B u x (a / t) (b / t) := by
  refine ⟨?_, fun v => ?_⟩
  · have := h.head
    simp only [smul] at this
    field_simp
    linarith
  · have := h.tail v
    simp only [smul, hB.smul] at this
    field_simp
    linarith

/-- The frame of the unit minus an element. -/
theorem Frame.sub (hB : IsForm B) {u : Nat → ℝ} {x y : El ℝ} {a b : ℝ} (h : Frame B u x a b)
    (hx : Same B x (add one (smul (-1) y))) : Frame B u y (1 - a) (1 - b) := by
  refine ⟨?_, fun v => ?_⟩
  · have h1 := hx.1
    have h2 := h.head
    simp only [add, one, smul] at h1
    linarith
  · have h1 := hx.2 v
    have h2 := h.tail v
    simp only [add, one, smul, hB.add, hB.smul, hB.zero_left] at h1
    linarith

theorem det_one (hB : IsForm B) : det B one = 1 := by
  unfold ConeCentering.Spec.det one
  simp only [hB.zero_left]
  norm_num

/-- What is known of a prepared and taken step. -/
theorem step_frame (hB : IsForm B) {w s z d w' : El ℝ} {a b t : ℝ} (hp : Prepared B w s z d a b)
    (ht : Taken B Real.exp z d t w') (ht0 : t ≠ 0) :
    ∃ u d₁ d₂ E, Unit B u d₁ d₂ ∧ Frame B u (quad B z s) (1 - d₁) (1 - d₂) ∧
      Frame B u E (Real.exp (t * d₁)) (Real.exp (t * d₂)) ∧ Unit B u (Real.exp (t * d₁)) (Real.exp (t * d₂)) ∧
      Same B w' (quad B z E) ∧
      |d₁| ≤ a ∧ |d₂| ≤ a ∧ b = d₁ ^ 2 + d₂ ^ 2 := by
  obtain ⟨h1, h2, h3, l₁, l₂, h4, rfl, rfl⟩ := hp
  obtain ⟨E, h5, h6⟩ := ht
  obtain ⟨u, x₁, x₂, g1, g2, g3⟩ := frame_of_fun hB h5
  have f1 := g2.of_smul hB ht0
  have f2 : Unit B u (x₁ / t) (x₂ / t) := by
    rcases g1 with g1 | ⟨g1, rfl⟩
    · exact Or.inl g1
    · exact Or.inr ⟨g1, rfl⟩
  refine ⟨u, x₁ / t, x₂ / t, E, f2, f1.sub hB h3, ?_, ?_, h6, ?_⟩
  · rw [mul_div_cancel₀ _ ht0, mul_div_cancel₀ _ ht0]
    exact g3
  · rw [mul_div_cancel₀ _ ht0, mul_div_cancel₀ _ ht0]
    rcases g1 with g1 | ⟨g1, rfl⟩
    · exact Or.inl g1
    · exact Or.inr ⟨g1, rfl⟩
  · rcases f1.eig hB f2 h4 with ⟨e1, e2⟩ | ⟨e1, e2⟩
    · rw [e1, e2]
      exact ⟨le_max_left _ _, le_max_right _ _, rfl⟩
    · rw [e1, e2]
      exact ⟨le_max_right _ _, le_max_left _ _, add_comm _ _⟩

/-- The distance of two points of a cone. -/
noncomputable def sep (B : (Nat → ℝ) → (Nat → ℝ) → ℝ) (w q : El ℝ) : ℝ :=
  tr B w q + tr B (inverse B w) (inverse B q) - 4

/-- The inner product of the differences of dual points and slacks. -/
noncomputable def cross (B : (Nat → ℝ) → (Nat → ℝ) → ℝ) (x x' s s' : El ℝ) : ℝ :=
  tr B x s - tr B x s' - tr B x' s + tr B x' s'

/-- A step comes closer to the central point. -/
theorem cell_decrease (hB : IsForm B) {w s z d w' q : El ℝ} {a b t : ℝ} (hp : Prepared B w s z d a b)
    (ht : Taken B Real.exp z d t w') (hq : Interior B q) (ht0 : 0 < t) (ht1 : t ≤ 1) (hta : t * (a * a) ≤ 2) :
    sep B w' q - sep B w q ≤ (t + t ^ 2 / 3) * (-cross B (dualPoint B w s) (inverse B q) s q - b) +
      (t + t ^ 2 / 3 - t / 10) * b := by
  obtain ⟨u, d₁, d₂, E, hu, hs, hE, hu', hw', ha₁, ha₂, hb⟩ := step_frame hB hp ht ht0.ne'
  have htd := trace_dual hB hp
  obtain ⟨hzz, hz, -, -⟩ := hp
  have hqz := interior_quad hB hz hq
  set Q := quad B z q with hQ
  obtain ⟨hα₁, hα₂⟩ := comp_pos hB (unit_le hu) hqz
  have hαα := comp_mul hB (unit_le hu) Q
  set α₁ := (comp B u Q).1 with hα₁'
  set α₂ := (comp B u Q).2 with hα₂'
  have hδ := det_pos hqz
  have hδ' : det B Q = det B z ^ 2 * det B q := det_quad hB z q
  have hdz := det_pos hz
  have hdq := det_pos hq
  have hww : Same B (quad B z one) w := by
    rw [quad_one hB]
    exact hzz
  have hdw : det B w = det B z ^ 2 := by
    rw [← det_congr hB hww, det_quad hB, det_one hB, mul_one]
  have hdw' : det B w' = det B z ^ 2 * (Real.exp (t * d₁) * Real.exp (t * d₂)) := by
    rw [det_congr hB hw', det_quad hB, hE.det hB hu']
  -- the inner products
  have t1 : tr B w q = α₁ + α₂ := by
    rw [← tr_congr hB hww (Same.refl q), tr_quad hB, (frame_one hB u).tr hB, one_mul, one_mul]
  have t2 : tr B w' q = Real.exp (t * d₁) * α₁ + Real.exp (t * d₂) * α₂ := by
    rw [tr_congr hB hw' (Same.refl q), tr_quad hB, hE.tr hB]
  have t3 : tr B (dualPoint B w s) q = (1 + d₁) * α₁ + (1 + d₂) * α₂ := by
    unfold dualPoint
    rw [tr_add hB, tr_smul hB, tr_smul hB, t1, tr_comm hB, ← tr_sqrt hB hzz, tr_comm hB, hs.tr hB]
    ring
  have t4 : tr B (inverse B q) s = ((1 - d₁) * α₂ + (1 - d₂) * α₁) / det B Q := by
    rw [tr_inverse hB, ← hs.sh hB, sh_quad hB, hδ']
    field_simp
  have t5 : tr B (inverse B q) q = 2 := by
    rw [tr_inverse hB]
    have : sh B q q = 2 * det B q := by
      unfold sh ConeCentering.Spec.det
      ring
    rw [this]
    field_simp
  have e1 : -cross B (dualPoint B w s) (inverse B q) s q - b =
      (α₂ / det B Q * (1 - d₁) + α₁ * (1 + d₁) - 2) + (α₁ / det B Q * (1 - d₂) + α₂ * (1 + d₂) - 2) := by
    unfold cross
    rw [htd, t3, t4, t5]
    ring
  have e2 : sep B w' q - sep B w q =
      (α₂ / det B Q * (Real.exp (-(t * d₁)) - 1) + α₁ * (Real.exp (t * d₁) - 1)) +
      (α₁ / det B Q * (Real.exp (-(t * d₂)) - 1) + α₂ * (Real.exp (t * d₂) - 1)) := by
    unfold sep
    rw [tr_inverse_inverse hB, tr_inverse_inverse hB, t1, t2, hdw, hdw', Real.exp_neg, Real.exp_neg, hδ']
    have := Real.exp_pos (t * d₁)
    have := Real.exp_pos (t * d₂)
    field_simp
    ring
  have hsq : ∀ x : ℝ, |x| ≤ a → t * x ^ 2 ≤ 2 := fun x hx => by
    have : x ^ 2 ≤ a * a := by
      have := sq_le_sq' (neg_le_of_abs_le hx) (le_of_abs_le hx)
      linarith
    exact (mul_le_mul_of_nonneg_left this ht0.le).trans hta
  have h1 := component (β := α₂ / det B Q) ht0 ht1 (hsq _ ha₁) hα₁ (by
    rw [← mul_div_assoc, le_div_iff₀ hδ, one_mul]
    exact hαα)
  have h2 := component (β := α₁ / det B Q) ht0 ht1 (hsq _ ha₂) hα₂ (by
    rw [← mul_div_assoc, le_div_iff₀ hδ, one_mul, mul_comm]
    exact hαα)
  rw [e1, e2, hb]
  linarith

/-- Two full steps. -/
theorem cell_quadratic (hB : IsForm B) {w s z d w' s' z' d' : El ℝ} {a b a' b' : ℝ} (hp : Prepared B w s z d a b)
    (ht : Taken B Real.exp z d 1 w') (hp' : Prepared B w' s' z' d' a' b') (ha : a ≤ 1) {A : ℝ} (hA : a ≤ A) :
    1 / 2 * b' + cross B (dualPoint B w' s') (dualPoint B w s) s' s ≤ A ^ 2 * b := by
  obtain ⟨u, d₁, d₂, E, hu, hs, hE, hu', hw', ha₁, ha₂, hb⟩ := step_frame hB hp ht one_ne_zero
  have htd := trace_dual hB hp
  have htd' := trace_dual hB hp'
  obtain ⟨hzz, hz, -, -⟩ := hp
  rw [one_mul, one_mul] at hE hu'
  have hww : Same B (quad B z one) w := by
    rw [quad_one hB]
    exact hzz
  set S := quad B z s with hS
  set S' := quad B z s' with hS'
  have hxx := comp_mul hB (unit_le hu) S'
  set x₁ := (comp B u S').1 with hx₁
  set x₂ := (comp B u S').2 with hx₂
  have hSc : comp B u S = (1 - d₁, 1 - d₂) := hs.comp hB (by
    rcases hu with hu | ⟨hu, rfl⟩
    · exact Or.inl hu
    · exact Or.inr ⟨hu, rfl⟩)
  have h1 := Real.exp_pos d₁
  have h2 := Real.exp_pos d₂
  have hdE := hE.det hB hu'
  set e₁ := Real.exp d₁ with he₁
  set e₂ := Real.exp d₂ with he₂
  -- dual points
  have hQ : ∀ x y, tr B (quad B w' x) y = tr B (quad B E (quad B z x)) (quad B z y) := by
    intro x y
    rw [tr_congr hB (hw'.quad_congr hB (Same.refl x)) (Same.refl y), quad_quad_quad hB, tr_quad hB]
  have hW : ∀ x, tr B w' x = tr B E (quad B z x) := fun x => by
    rw [tr_congr hB hw' (Same.refl x), tr_quad hB]
  have t1 : tr B (dualPoint B w' s') s' = 2 * (e₁ * x₁ + e₂ * x₂) - ((e₁ * x₁ + e₂ * x₂) ^ 2 -
      e₁ * e₂ * (2 * det B S')) := by
    unfold dualPoint
    rw [tr_add hB, tr_smul hB, tr_smul hB, hW, hQ, tr_quad_eq hB, hE.tr hB, hdE]
    have : sh B S' S' = 2 * det B S' := by
      unfold sh ConeCentering.Spec.det
      ring
    rw [this]
    ring
  have t2 : tr B (dualPoint B w' s') s = 2 * (e₁ * (1 - d₁) + e₂ * (1 - d₂)) -
      (e₁ ^ 2 * (1 - d₁) * x₁ + e₂ ^ 2 * (1 - d₂) * x₂) := by
    unfold dualPoint
    rw [tr_add hB, tr_smul hB, tr_smul hB, hW, hQ, tr_quad_eq hB, hE.tr hB, hE.tr hB, hdE, hs.sh hB, hSc]
    simp only
    ring
  have t3 : tr B (dualPoint B w s) s' = (1 + d₁) * x₁ + (1 + d₂) * x₂ := by
    have t0 : tr B w s' = x₁ + x₂ := by
      rw [← tr_congr hB hww (Same.refl s'), tr_quad hB, (frame_one hB u).tr hB, one_mul, one_mul]
    unfold dualPoint
    rw [tr_add hB, tr_smul hB, tr_smul hB, t0, tr_comm hB, ← tr_sqrt hB hzz, tr_comm hB, hs.tr hB]
    ring
  have e1 : 1 / 2 * b' + cross B (dualPoint B w' s') (dualPoint B w s) s' s =
      (-(1 / 2) * (1 - e₁ * x₁) ^ 2 + 2 - 2 * e₁ * (1 - d₁) + e₁ ^ 2 * (1 - d₁) * x₁ - 2 * x₁ +
        (1 - d₁) * x₁ - d₁ ^ 2) + (-(1 / 2) * (1 - e₂ * x₂) ^ 2 + 2 - 2 * e₂ * (1 - d₂) + e₂ ^ 2 * (1 - d₂) * x₂ -
        2 * x₂ + (1 - d₂) * x₂ - d₂ ^ 2) - e₁ * e₂ * (x₁ * x₂ - det B S') := by
    unfold cross
    have hb' : b' = 2 - tr B (dualPoint B w' s') s' := by rw [htd']; ring
    rw [htd, t2, t3, hb', t1, hb]
    ring
  have h3 := component_full (x := x₁) (ha₁.trans ha)
  have h4 := component_full (x := x₂) (ha₂.trans ha)
  have h5 : 0 ≤ e₁ * e₂ * (x₁ * x₂ - det B S') := mul_nonneg (by positivity) (by linarith)
  have hsq : ∀ x : ℝ, |x| ≤ a → x ^ 2 * x ^ 2 ≤ A ^ 2 * x ^ 2 := fun x hx => by
    have hx := hx.trans hA
    exact mul_le_mul_of_nonneg_right (sq_le_sq' (neg_le_of_abs_le hx) (le_of_abs_le hx)) (sq_nonneg _)
  have h6 := hsq _ ha₁
  have h7 := hsq _ ha₂
  rw [e1, hb]
  linarith

/-- The distance is nonnegative. -/
theorem sep_nonneg (hB : IsForm B) {w q : El ℝ} (hw : Interior B w) (hq : Interior B q) : 0 ≤ sep B w q := by
  unfold sep
  rw [tr_inverse_inverse hB]
  have h1 := det_pos hw
  have h2 := det_pos hq
  have h3 := tr_pos hB ⟨hw.1.le, hw.2.le⟩ hw.1 hq
  -- the square of the inner product is at least four times the product of the determinants
  have h4 : 4 * (det B w * det B q) ≤ tr B w q ^ 2 := by
    have c := hB.cauchy w.t q.t
    have p1 := hB.nonneg w.t
    have p2 := hB.nonneg q.t
    have q1 := hw.2.le
    have q2 := hq.2.le
    have hk : 0 ≤ w.h * q.h := mul_nonneg hw.1.le hq.1.le
    set x := B w.t q.t with hx
    set p := B w.t w.t
    set r := B q.t q.t
    set ρ := Real.sqrt (p * r) with hρ
    have m0 : 0 ≤ ρ := Real.sqrt_nonneg _
    have m1 : ρ ^ 2 = p * r := Real.sq_sqrt (mul_nonneg p1 p2)
    have m2 : -ρ ≤ x := (abs_le.1 (abs_le_of_sq_le_sq (by rw [m1]; exact c) m0)).1
    have m3 : ρ ≤ w.h * q.h := by
      refine le_of_sq_le_sq ?_ hk
      rw [m1, mul_pow]
      exact mul_le_mul q1 q2 p2 (sq_nonneg _)
    have m4 : 2 * (w.h * q.h * ρ) ≤ w.h ^ 2 * r + q.h ^ 2 * p :=
      Centering.am_gm (by positivity) (by positivity) fun _ => by
        rw [mul_pow, m1]
        exact le_of_eq (by ring)
    have m5 : (w.h * q.h - ρ) ^ 2 ≤ (w.h * q.h + x) ^ 2 := pow_le_pow_left₀ (by linarith) (by linarith) 2
    have e1 : tr B w q ^ 2 = 4 * (w.h * q.h + x) ^ 2 := by
      unfold tr mul
      ring
    have e2 : det B w * det B q = (w.h ^ 2 - p) * (q.h ^ 2 - r) := rfl
    rw [e1, e2]
    nlinarith
  set k := det B w * det B q with hk
  have hk0 : 0 < k := mul_pos h1 h2
  set T := tr B w q
  have : 4 ≤ T + T / k := by
    rw [← sub_nonneg]
    have : T + T / k - 4 = (T * (k + 1) - 4 * k) / k := by field_simp
    rw [this]
    refine div_nonneg ?_ hk0.le
    have : 4 * k ≤ T * (k + 1) := by
      refine le_of_sq_le_sq ?_ (by positivity)
      nlinarith [sq_nonneg (k - 1)]
    linarith
  linarith

end Verif.Spin
