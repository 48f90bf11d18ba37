import Verif.Lemmas.CentralExists
import Verif.Lemmas.SearchPolyhedral
import Verif.Lemmas.WholeSolve

/-!
# Directions as functions of the barrier parameter (C90)
-/

namespace Verif.Whole

open Finset LineSearch Centering Centering.Spec Whole.Spec Iteration.Spec
open Verif.Dual

/-- The equations of a direction. -/
def Newton (es : List (Entry ℝ)) (N : Nat) (g : Nat → ℝ) (c : ℝ) (y : Nat → ℝ) : Prop :=
  ∀ u < N, balance es (fun i r => weight (nth es i).item r * (1 + dir es c y i r)) u + gradients es y u = g u

/-- They determine the direction. -/
theorem newton_unique {es : List (Entry ℝ)} {N : Nat} (hs : Shape es N)
    (hw : ∀ i < es.length, ∀ r < (con (nth es i).item).n, 0 < weight (nth es i).item r) {g : Nat → ℝ} {c : ℝ}
    {y y' : Nat → ℝ} (h : Newton es N g c y) (h' : Newton es N g c y') :
    ∀ i < es.length, ∀ r < (con (nth es i).item).n, dir es c y i r = dir es c y' i r := by
  have h1 := monotone hs (y := y) (y' := y') c fun u hu => (h u hu).trans (h' u hu).symm
  have h2 : rows es (fun i r => (weight (nth es i).item r * (1 + dir es c y i r) -
      weight (nth es i).item r * (1 + dir es c y' i r)) * (slack es c y i r - slack es c y' i r)) =
      -rows es fun i r => (dir es c y i r - dir es c y' i r) ^ 2 := by
    rw [← neg_one_mul, ← rows_mul]
    refine rows_congr fun i hi r hr => ?_
    unfold dir
    ring
  rw [h2, Left.nonneg_neg_iff] at h1
  intro i hi r hr
  have h3 : (dir es c y i r - dir es c y' i r) ^ 2 ≤ rows es fun i r => (dir es c y i r - dir es c y' i r) ^ 2 :=
    term_le (u := fun i r => dir es c y i r - dir es c y' i r) (m := fun i => (con (nth es i).item).n) hi hr
  have h4 : dir es c y i r - dir es c y' i r = 0 := pow_eq_zero_iff two_ne_zero |>.1 (le_antisymm (h3.trans h1) (sq_nonneg _))
  linarith

theorem balance_line (es : List (Entry ℝ)) (x x' : Nat → Nat → ℝ) (t : ℝ) (u : Nat) :
    balance es (fun i r => x i r + t * (x' i r - x i r)) u = balance es x u + t * (balance es x' u - balance es x u) := by
  have h1 : balance es (fun i r => x i r + t * (x' i r - x i r)) u =
      balance es x u - balance es (fun i r => (-t) * (x' i r - x i r)) u := by
    rw [← balance_sub]
    congr 1
    funext i r
    ring
  rw [h1, balance_mul, balance_sub]
  ring

/-- Solutions for the parameters zero and one give solutions for all parameters. -/
theorem newton_line {es : List (Entry ℝ)} {N : Nat} (hs : Shape es N) {b : Nat → ℝ} {bs cs : ℝ} {y0 y1 : Nat → ℝ}
    (h0 : Newton es N (fun u => 0 * bs * b u) (0 * cs) y0) (h1 : Newton es N (fun u => 1 * bs * b u) (1 * cs) y1) (t : ℝ) :
    Newton es N (fun u => t * bs * b u) (t * cs) fun u => y0 u + t * (y1 u - y0 u) := by
  intro u hu
  have e1 : (fun i r => weight (nth es i).item r * (1 + dir es (t * cs) (fun u => y0 u + t * (y1 u - y0 u)) i r)) =
      fun i r => weight (nth es i).item r * (1 + dir es (0 * cs) y0 i r) + t *
        (weight (nth es i).item r * (1 + dir es (1 * cs) y1 i r) - weight (nth es i).item r * (1 + dir es (0 * cs) y0 i r)) := by
    funext i r
    have h2 : dir es (t * cs) (fun u => y0 u + t * (y1 u - y0 u)) i r = rowDir cs y0 y1 (nth es i) t r := rfl
    have h3 : dir es (0 * cs) y0 i r = rowDir cs y0 y1 (nth es i) 0 r := by
      simp only [dir, slack, rowDir, zero_mul, add_zero]
    have h4 : dir es (1 * cs) y1 i r = rowDir cs y0 y1 (nth es i) 1 r := by
      simp only [dir, slack, rowDir, one_mul, add_sub_cancel]
    rw [h2, h3, h4, rowDir_line]
    ring
  have e2 : gradients es (fun u => y0 u + t * (y1 u - y0 u)) u =
      gradients es y0 u + t * (gradients es y1 u - gradients es y0 u) := by
    rw [gradients_add hs, gradients_mul hs, gradients_sub hs]
  rw [e1, e2, balance_line]
  have g0 := h0 u hu
  have g1 := h1 u hu
  linear_combination (1 - t) * g0 + t * g1

/-- The direction for the parameter zero is short. -/
theorem newton_zero {es : List (Entry ℝ)} {N : Nat} (hs : Shape es N) {g : Nat → ℝ} (hg : ∀ u < N, g u = 0) {c : ℝ}
    (hc : c = 0) {y : Nat → ℝ} (h : Newton es N g c y) : rows es (fun i r => dir es c y i r ^ 2) ≤ count es := by
  subst hc
  have hgr : ∀ u, gradients es (fun _ => (0 : ℝ)) u = 0 := by
    intro u
    have := gradients_mul hs 0 (fun _ => (0 : ℝ)) u
    simpa using this
  have hba : ∀ u, balance es (fun _ _ => (0 : ℝ)) u = 0 := by
    intro u
    have := balance_mul es 0 (fun _ _ => (0 : ℝ)) u
    simpa using this
  have h1 := monotone hs (x' := fun _ _ => 0) (y := y) (y' := fun _ => 0) 0 fun u hu => by
    rw [h u hu, hg u hu, hgr, hba, add_zero]
  have h2 : rows es (fun i r => (weight (nth es i).item r * (1 + dir es 0 y i r) - 0) *
      (slack es 0 y i r - slack es 0 (fun _ => 0) i r)) = rows es fun i r => 1 + -1 * dir es 0 y i r ^ 2 := by
    refine rows_congr fun i hi r hr => ?_
    have : slack es 0 (fun _ => 0) i r = 0 := by simp [slack]
    rw [this]
    unfold dir
    ring
  rw [h2, rows_add, rows_mul] at h1
  have h3 : rows es (fun _ _ => 1) = count es := by simp [rows, count]
  linarith

end Verif.Whole
