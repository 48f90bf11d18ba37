import Verif.Lemmas.CenteringScalar
import Verif.Spec.MatrixExp
import Mathlib.Tactic.FieldSimp

/-!
# Lemmas for C95: inequalities for the approximations of the exponential of a step

The Padé approximant of a real matrix inequality and the Taylor polynomial of a Hermitian one satisfy the inequalities
used for the exponential.
-/

namespace Verif.StepScalar

open Verif.MatrixExp.Spec (p)

/-- What a full step of length `x` needs to know about the factor `r` that it multiplies an eigenvalue by. -/
structure Full (x r : ℝ) : Prop where
  pos : 0 < r
  lower : 1 + x ≤ r
  upper : r * (1 - x) ≤ 1

/-- The Padé approximant. -/
theorem full_pade {x : ℝ} (h : x ^ 2 ≤ 2) : Full x (p x / p (-x)) := by
  have h1 : 0 < p x := by unfold p; nlinarith [sq_nonneg (x + 1)]
  have h2 : 0 < p (-x) := by unfold p; nlinarith [sq_nonneg (x - 1)]
  refine ⟨div_pos h1 h2, ?_, ?_⟩
  · rw [le_div_iff₀ h2]
    unfold p
    nlinarith [sq_nonneg x, mul_nonneg (sq_nonneg x) (sq_nonneg (x - 5))]
  · rw [div_mul_eq_mul_div, div_le_one h2]
    unfold p
    nlinarith [sq_nonneg x, mul_nonneg (sq_nonneg x) (sq_nonneg (x + 5))]

/-- The Taylor polynomial with scaling and squaring. -/
theorem full_taylor {x : ℝ} (h : x ^ 2 ≤ 1) : Full x ((1 + x / 4 + x ^ 2 / 32) ^ 4) := by
  have hx := abs_le.1 ((sq_le_one_iff_abs_le_one x).1 h)
  have h1 : 0 < 1 + x / 4 + x ^ 2 / 32 := by nlinarith [sq_nonneg (x + 4)]
  refine ⟨by positivity, ?_, ?_⟩
  · have h2 : 1 + x / 2 ≤ (1 + x / 4 + x ^ 2 / 32) ^ 2 := by nlinarith [sq_nonneg (x / 4 + x ^ 2 / 32), sq_nonneg x]
    have h3 : 0 ≤ 1 + x / 2 := by linarith [hx.1]
    have h4 := pow_le_pow_left₀ h3 h2 2
    calc 1 + x ≤ (1 + x / 2) ^ 2 := by nlinarith [sq_nonneg x]
      _ ≤ _ := h4
      _ = _ := by ring
  · -- (1 + s + s² / 2)⁴ (1 - 4 s) = 1 - s² (8 + ...)
    have e : (1 + x / 4 + x ^ 2 / 32) ^ 4 * (1 - x) = 1 - x ^ 2 * (1 / 2 + 11 / 32 * x + 63 / 512 * x ^ 2 + 29 / 1024 * x ^ 3 +
        9 / 2048 * x ^ 4 + 15 / 32768 * x ^ 5 + 31 / 1048576 * x ^ 6 + 1 / 1048576 * x ^ 7) := by ring
    rw [e]
    have : 0 ≤ 1 / 2 + 11 / 32 * x + 63 / 512 * x ^ 2 + 29 / 1024 * x ^ 3 +
        9 / 2048 * x ^ 4 + 15 / 32768 * x ^ 5 + 31 / 1048576 * x ^ 6 + 1 / 1048576 * x ^ 7 := by
      have a3 : -1 ≤ x ^ 3 := by nlinarith [sq_nonneg x]
      have a5 : -1 ≤ x ^ 5 := by nlinarith [sq_nonneg x, sq_nonneg (x ^ 2)]
      have a7 : -1 ≤ x ^ 7 := by nlinarith [sq_nonneg x, sq_nonneg (x ^ 2), sq_nonneg (x ^ 3)]
      have := hx.1
      nlinarith [sq_nonneg x, sq_nonneg (x ^ 2), sq_nonneg (x ^ 3)]
    nlinarith [mul_nonneg (sq_nonneg x) this]

/-- The two errors of a full step are at most the square of its length. -/
theorem Full.bounds {x r : ℝ} (h : Full x r) (hx : x ^ 2 ≤ 1) :
    (1 - r * (1 - x)) ^ 2 ≤ (x ^ 2) ^ 2 ∧ ((1 + x) / r - 1) ^ 2 ≤ (x ^ 2) ^ 2 := by
  have hb := abs_le.1 ((sq_le_one_iff_abs_le_one x).1 hx)
  obtain ⟨h1, h2, h3⟩ := h
  constructor
  · have h4 : 0 ≤ 1 - r * (1 - x) := by linarith
    have h5 : 1 - r * (1 - x) ≤ x ^ 2 := by nlinarith [hb.2]
    exact pow_le_pow_left₀ h4 h5 2
  · have h4 : 0 ≤ 1 - (1 + x) / r := by rw [sub_nonneg, div_le_one h1]; exact h2
    have h5 : 1 - (1 + x) / r ≤ x ^ 2 := by
      rw [sub_le_comm, le_div_iff₀ h1]
      nlinarith [hb.1]
    have := pow_le_pow_left₀ h4 h5 2
    nlinarith

end Verif.StepScalar
