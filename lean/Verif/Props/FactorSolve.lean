import Mathlib.Tactic.NormNum
import Mathlib.Tactic.Linarith
import Verif.Lemmas.FactorSolve

/-!
# C105: solving with a dense factorization, and reconstructing the matrix

`RLDLT::solve` should solve the system of the matrix given to `compute`, and `reconstructedMatrix`
should return that matrix.
-/

namespace Verif.Dense

open Finset

variable {R : Type} [Field R] [LinearOrder R] [IsStrictOrderedRing R]

/-- **C105.** For every object that holds a factorization of `A`: the reconstructed matrix is `A`, and
if the pivots are above the smallest normal number, `solve` solves `A x = b`. -/
theorem C105_object (n : Nat) (f : Factor R) (A : Nat → Nat → R)
    (hp : ∀ i, i < n → permOf f.tr i < n) (hA : Spec.Factorizes n f.mat (permOf f.tr) A) :
    (∀ i j, i < n → j < n → f.reconstructed n i j = A i j) ∧
    ∀ tiny : R, 0 ≤ tiny → (∀ l, l < n → tiny < |f.mat l l|) → ∀ b i, i < n →
      ∑ j ∈ range n, A i j * f.solve n tiny b j = b i :=
  ⟨fun i j hi hj => reconstructed_eq hp hA i j hi hj, fun tiny h0 ht b i hi =>
    solve_eq hp hA (fun l hl h => by
      have := ht l hl
      rw [h, abs_zero] at this
      exact absurd this (not_lt.2 h0)) ht b i hi⟩

/-- **C105 (partial).** If `compute` replaces no pivot of the symmetric matrix given by the lower
triangle `A`, the reconstructed matrix is that matrix, and `solve` solves its system. Replaced pivots
are excluded: see `C105_solve_violated`. -/
theorem C105_compute_partial (n : Nat) (A : Nat → Nat → R) (s : Ldlt R) (h : ldlt n A = .ok s)
    (hr : s.reg = false) (tiny : R) (h0 : 0 ≤ tiny) (ht : tiny < 1 / 1000000000) :
    ∃ f, compute n A = .ok f ∧
      (∀ i j, i < n → j < n → f.reconstructed n i j = A (max i j) (min i j)) ∧
      ∀ b i, i < n → ∑ j ∈ range n, A (max i j) (min i j) * f.solve n tiny b j = b i := by
  obtain ⟨f, hf, e1, _, hp, hA⟩ := compute_factorizes h hr
  obtain ⟨g1, g2⟩ := C105_object n f _ hp hA
  exact ⟨f, hf, g1, g2 tiny h0 fun l hl => by
    rw [e1]; exact lt_of_lt_of_le ht (ldlt_pivots h l hl)⟩

/-- A matrix with an exchange of indices: the reconstruction and a solution. -/
example : ((ldlt 2 (fun i j => if i = 1 ∧ j = 1 then (3 : ℚ) else if i = j then 0 else 1)).toOption.map
      (fun s => (s.reg, s.tr))) = some (false, [1, 1]) ∧
    ((compute 2 (fun i j => if i = 1 ∧ j = 1 then (3 : ℚ) else if i = j then 0 else 1)).toOption.map
      (fun f => ([f.reconstructed 2 0 0, f.reconstructed 2 0 1, f.reconstructed 2 1 0,
          f.reconstructed 2 1 1],
        [f.solve 2 0 (fun i => if i = 0 then 1 else 5) 0,
          f.solve 2 0 (fun i => if i = 0 then 1 else 5) 1]))) =
      some ([0, 1, 1, 3], [2, 1]) := by
  refine ⟨by decide +kernel, by decide +kernel⟩

/-- **C105 is violated** by replaced pivots: for the invertible matrix with zero diagonal and ones
beside it, `compute` replaces the first pivot, and `solve` returns a vector that does not solve the
system. -/
theorem C105_solve_violated :
    ∃ (A : Nat → Nat → ℚ) (f : Factor ℚ) (b : Nat → ℚ), compute 2 A = .ok f ∧
      (∃ x : Nat → ℚ, ∀ i, i < 2 → ∑ j ∈ range 2, A (max i j) (min i j) * x j = b i) ∧
      ¬ ∀ i, i < 2 → ∑ j ∈ range 2, A (max i j) (min i j) * f.solve 2 0 b j = b i := by
  have h : ((compute 2 (fun i j => if i = j then (0 : ℚ) else 1)).toOption.map
      (fun f => f.solve 2 0 (fun i => if i = 1 then 1 else 0) 1)) = some (-1 / 1000000000) := by
    decide +kernel
  cases hc : compute 2 (fun i j => if i = j then (0 : ℚ) else 1) with
  | ok f =>
    rw [hc] at h
    simp only [Outcome.toOption, Option.map_some, Option.some.injEq] at h
    refine ⟨_, f, fun i => if i = 1 then 1 else 0, hc,
      ⟨fun i => if i = 0 then 1 else 0, by decide +kernel⟩, fun H => ?_⟩
    have := H 0 (by omega)
    simp [sum_range_succ, h] at this
  | throws => rw [hc] at h; simp [Outcome.toOption] at h
  | ub => rw [hc] at h; simp [Outcome.toOption] at h
  | diverges => rw [hc] at h; simp [Outcome.toOption] at h

end Verif.Dense
