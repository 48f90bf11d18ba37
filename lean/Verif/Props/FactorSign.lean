import Mathlib.Tactic.NormNum
import Mathlib.Tactic.Linarith
import Verif.Lemmas.FactorSign

/-!
# C104: the sign of a dense factorization

`isPositive` and `isNegative` of an `RLDLT` object should say whether the matrix given to `compute`
is positive or negative semidefinite.
-/

namespace Verif.Dense

open Finset

/-- **C104 (partial).** If no pivot is replaced, `isPositive` says exactly whether the quadratic form
is nowhere negative, and `isNegative` whether it is nowhere positive. Replaced pivots are excluded:
see `C104_positive_violated` and `C104_negative_violated`. -/
theorem C104_sign_partial {R : Type} [Field R] [LinearOrder R] [IsStrictOrderedRing R] (n : Nat)
    (A : Nat → Nat → R) (s : Ldlt R) (h : ldlt n A = .ok s) (hr : s.reg = false) :
    ∃ f, compute n A = .ok f ∧
      (f.isPositive = true ↔ ∀ x, 0 ≤ Spec.form n A x) ∧
      (f.isNegative = true ↔ ∀ x, Spec.form n A x ≤ 0) := by
  obtain ⟨_, _, _, hd, _⟩ := ldlt_spec h
  obtain ⟨f, hf, _, _, hp, hn⟩ := compute_sign h
  have hx : ∀ x : Nat → R, Spec.form n A x =
      ∑ l ∈ range n, s.mat l l * ((∑ i ∈ range n, unitLower s.mat i l * x (permOf s.tr i)) *
        ∑ i ∈ range n, unitLower s.mat i l * x (permOf s.tr i)) := by
    intro x
    rw [← form_eq h hr (fun i => x (permOf s.tr i))]
    simp
  refine ⟨f, hf, hp.trans ⟨fun h1 x => ?_, fun h1 l hl => ?_⟩,
    hn.trans ⟨fun h1 x => ?_, fun h1 l hl => ?_⟩⟩
  · rw [hx]
    exact sum_nonneg fun l hl => mul_nonneg (h1 l (mem_range.1 hl)).le (mul_self_nonneg _)
  · obtain ⟨x, e⟩ := form_pivot h hr hl
    exact lt_of_le_of_ne (e ▸ h1 x) (hd l hl).symm
  · rw [hx]
    exact sum_nonpos fun l hl =>
      mul_nonpos_of_nonpos_of_nonneg (h1 l (mem_range.1 hl)).le (mul_self_nonneg _)
  · obtain ⟨x, e⟩ := form_pivot h hr hl
    exact lt_of_le_of_ne (e ▸ h1 x) (hd l hl)

/-- A factorization without replaced pivots. -/
example : ((ldlt 2 (fun i j => if i = j then (2 : ℚ) else 1)).toOption.map (·.reg)) = some false ∧
    ((compute 2 (fun i j => if i = j then (2 : ℚ) else 1)).toOption.map
      (fun f => (f.isPositive, f.isNegative))) = some (true, false) := by
  refine ⟨by decide +kernel, by decide +kernel⟩

/-- **C104 is violated** by an indefinite matrix of small entries: `1e-10` on the diagonal and
`2e-10` beside it. Replaced pivots make it look positive definite. -/
theorem C104_positive_violated :
    ∃ (A : Nat → Nat → ℚ) (f : Factor ℚ) (x : Nat → ℚ), compute 2 A = .ok f ∧
      f.isPositive = true ∧ Spec.form 2 A x < 0 := by
  have h : ((compute 2 (fun i j => if i = j then (1 / 10000000000 : ℚ) else 2 / 10000000000)).toOption.map
      (fun f => f.isPositive)) = some true := by decide +kernel
  cases hc : compute 2 (fun i j => if i = j then (1 / 10000000000 : ℚ) else 2 / 10000000000) with
  | ok f =>
    rw [hc] at h
    simp only [Outcome.toOption, Option.map_some, Option.some.injEq] at h
    exact ⟨_, f, fun i => if i = 0 then 1 else -1, hc, h, by decide +kernel⟩
  | throws => rw [hc] at h; simp [Outcome.toOption] at h
  | ub => rw [hc] at h; simp [Outcome.toOption] at h
  | diverges => rw [hc] at h; simp [Outcome.toOption] at h

/-- **C104 is violated** by the negative semidefinite matrix `diag(-1, 0)`: the zero pivot is
replaced by a positive one, and `isNegative` is false. -/
theorem C104_negative_violated :
    ∃ (A : Nat → Nat → ℚ) (f : Factor ℚ), compute 2 A = .ok f ∧
      f.isNegative = false ∧ ∀ x, Spec.form 2 A x ≤ 0 := by
  have h : ((compute 2 (fun i j => if i = 0 ∧ j = 0 then (-1 : ℚ) else 0)).toOption.map
      (fun f => f.isNegative)) = some false := by decide +kernel
  cases hc : compute 2 (fun i j => if i = 0 ∧ j = 0 then (-1 : ℚ) else 0) with
  | ok f =>
    rw [hc] at h
    simp only [Outcome.toOption, Option.map_some, Option.some.injEq] at h
    refine ⟨_, f, hc, h, fun x => ?_⟩
    have e : Spec.form 2 (fun i j => if i = 0 ∧ j = 0 then (-1 : ℚ) else 0) x = -(x 0 * x 0) := by
      simp [Spec.form, sum_range_succ]
    rw [e]
    have := mul_self_nonneg (x 0)
    linarith
  | throws => rw [hc] at h; simp [Outcome.toOption] at h
  | ub => rw [hc] at h; simp [Outcome.toOption] at h
  | diverges => rw [hc] at h; simp [Outcome.toOption] at h

end Verif.Dense
