import Verif.Lemmas.MatlabFaithful
import Mathlib.Tactic.NormNum
import Mathlib.Tactic.IntervalCases
import Mathlib.Tactic.Linarith

/-!
# Properties of the preprocessing of the MATLAB interface (C65)
-/

namespace Verif.Matlab

open Spec
open scoped BigOperators

/-- `Symmetrize` gives a program that stands for the program, whatever the rows and the cost. -/
theorem C65_symmetrize (P : Prob ℝ) (hN : P.N = numVar P.s) : Faithful P (symmetric P) id id :=
  faithful_symmetric P hN

/-- `CleanLinear` gives a program that stands for the program. -/
theorem C65_clean (P : Prob ℝ) (hN : P.N = numVar P.s) :
    Faithful P (cleanLinear P).2 id (recoverDual (cleanLinear P).1) :=
  faithful_clean P hN

/-- A program with a block of order 2, one of order 1, and three equations: the second row is not symmetric,
and the third is 0. -/
noncomputable def sample : Prob ℝ where
  m := 3
  N := 5
  A := fun i j => if i = 0 then (if j = 0 ∨ j = 3 ∨ j = 4 then 1 else 0)
    else if i = 1 then (if j = 1 then 2 else 0) else 0
  b := fun i => if i = 0 then 1 else 0
  c := fun j => if j = 1 ∨ j = 4 then 1 else 0
  s := [2, 1]

example : sample.N = numVar sample.s := rfl

/-- The reduced program stands for the program, if every entry with a cost (after symmetrisation) occurs in
some equation: the two problems have the same feasible values, primal and dual, and the solutions of the
reduced program are recovered.  Missing: entries with a cost that occur in no equation, see
`C65_violated`. -/
theorem C65_partial (P : Prob ℝ) (hN : P.N = numVar P.s)
    (hc : ∀ j, j < P.N → symmetrize P.s P.c j ≠ 0 → ∃ i, i < P.m ∧ symmetrize P.s (P.A i) j ≠ 0) :
    ∃ indx keep Q, blkdiagPrg P = .ok (indx, keep, Q) ∧
      Faithful P Q (recoverPrimal indx) (recoverDual keep) := by
  have hok := symmetric_ok P hN
  obtain ⟨M, cls, L, M0, h1, h2, h3, h4⟩ := buildMask_closed (symmetric P) hok hc
  have hM : Masked (symmetric P).s 0 M cls := h2.masked
  refine ⟨_, _, _, blkdiag_eq h1, ?_⟩
  have f1 := faithful_symmetric P hN
  have f2 := faithful_restrict hok (symmetrize_symRow P.s P.c) hM h3 h4
  have f3 := faithful_clean (restrict (symmetric P) (maskIndex (symmetric P).s 0 cls) (maskSizes cls))
    (restrict_dim hM)
  have := (f1.trans f2).trans f3
  simpa only [id, zeroOut_recover] using this

example : ∀ j, j < sample.N → symmetrize sample.s sample.c j ≠ 0 →
    ∃ i, i < sample.m ∧ symmetrize sample.s (sample.A i) j ≠ 0 := by
  intro j hj h
  have hn : numVar sample.s = 5 := rfl
  have hj : j < 5 := hj
  rw [symmetrize_get _ _ (by omega)] at h
  interval_cases j
  · exact ⟨0, by decide, by rw [symmetrize_get _ _ (by omega)]; norm_num [sample, mirror, pos]⟩
  · exact ⟨1, by decide, by rw [symmetrize_get _ _ (by omega)]; norm_num [sample, mirror, pos]⟩
  · exact ⟨1, by decide, by rw [symmetrize_get _ _ (by omega)]; norm_num [sample, mirror, pos]⟩
  · exact ⟨0, by decide, by rw [symmetrize_get _ _ (by omega)]; norm_num [sample, mirror, pos]⟩
  · exact ⟨0, by decide, by rw [symmetrize_get _ _ (by omega)]; norm_num [sample, mirror, pos]⟩

/-- For every program: the preprocessing ends, solutions of the reduced primal problem become solutions of
the problem with the same cost, and dual solutions become dual solutions of the reduced problem with the same
value. -/
theorem C65_half (P : Prob ℝ) (hN : P.N = numVar P.s) :
    ∃ indx keep Q, blkdiagPrg P = .ok (indx, keep, Q) ∧
      (∀ x, PrimalFeasible Q x → PrimalFeasible P (recoverPrimal indx x) ∧
        primalCost P (recoverPrimal indx x) = primalCost Q x) ∧
      ∀ y, DualFeasible P y → ∃ y', DualFeasible Q y' ∧ dualCost Q y' = dualCost P y := by
  have hok := symmetric_ok P hN
  obtain ⟨M, cls, L, M0, h1, h2⟩ := buildMask_ok (symmetric P) hok
  have hM : Masked (symmetric P).s 0 M cls := h2.masked
  have f1 := faithful_symmetric P hN
  have f3 := faithful_clean (restrict (symmetric P) (maskIndex (symmetric P).s 0 cls) (maskSizes cls))
    (restrict_dim hM)
  refine ⟨_, _, _, blkdiag_eq h1, fun x hx => ?_, fun y hy => ?_⟩
  · obtain ⟨g1, g2⟩ := f3.primal_back x hx
    obtain ⟨g3, g4⟩ := restrict_primal_back hok hM _ g1
    obtain ⟨g5, g6⟩ := f1.primal_back _ g3
    exact ⟨g5, g6.trans (g4.trans g2)⟩
  · have g1 := (slack_sym P hN y).1 hy
    have g2 := restrict_dual_forth hok (symmetrize_symRow P.s P.c) hM y g1
    obtain ⟨y', g3, g4⟩ := f3.dual_forth y g2
    exact ⟨y', g3, g4⟩

/-- `BuildMask` drops entries with a cost that occur in no equation.  Minimise `-x₂` over `x₁ = 1`, `x₁ ≥ 0`,
`x₂ ≥ 0`: the problem is unbounded, and its dual has no solution; but the reduced problem has cost 0
everywhere, and `y = 0` solves its dual. -/
theorem C65_violated : ∃ (P : Prob ℝ) (indx keep : List Nat) (Q : Prob ℝ), P.N = numVar P.s ∧
    blkdiagPrg P = .ok (indx, keep, Q) ∧
    (∀ t, 0 ≤ t → ∃ x, PrimalFeasible P x ∧ primalCost P x = -t) ∧ (∀ y, ¬ DualFeasible P y) ∧
    (∀ x, primalCost Q x = 0) ∧ DualFeasible Q fun _ => 0 := by
  let P : Prob ℝ := {
    m := 1, N := 2, A := fun _ j => if j = 0 then 1 else 0, b := fun _ => 1
    c := fun j => if j = 1 then -1 else 0, s := [1, 1] }
  have hN : P.N = numVar P.s := rfl
  have hok := symmetric_ok P hN
  obtain ⟨M, cls, L, M0, h1, h2⟩ := buildMask_ok (symmetric P) hok
  have hM : Masked (symmetric P).s 0 M cls := h2.masked
  have hmem := mem_mask hok hM
  have hn : numVar P.s = 2 := rfl
  have hnot : ∀ k ∈ maskIndex (symmetric P).s 0 cls, k = 0 := by
    intro k hk
    obtain ⟨k1, k2⟩ := (hmem k).1 hk
    have k1 : k < 2 := k1
    rcases Nat.lt_or_ge k 1 with hk0 | hk1
    · omega
    exfalso
    have hk : k = pos (0 + 1 * 1) 1 0 0 := by unfold pos; omega
    rw [hk] at k2
    have hc : Comp [1, 1] 0 (spread (symmetric P) L) cls := h2.comp
    have hM' : Masked [1, 1] 0 M cls := hM
    match cls, hc, hM' with
    | [cl1, cl2], hc, hM' =>
      obtain ⟨c, hc1, hc2, -⟩ := (hM'.2.1.2 0 0 (by omega) (by omega)).1 k2
      obtain ⟨j, hj, hs⟩ := hc.2.1.2.2.1 c hc1 0 hc2
      obtain ⟨-, i, -, -, ha⟩ := (spread_iff _ _ _).1 hs
      have hj0 : j = 0 := by omega
      subst hj0
      apply ha
      show symmetrize P.s (P.A i) (pos (0 + 1 * 1) 1 0 0) = 0
      rw [symmetrize_get _ _ (by rw [hn]; decide)]
      norm_num [P, mirror, pos]
  have hc0 : (symmetric P).c 0 = 0 := by
    show symmetrize P.s P.c 0 = 0
    rw [symmetrize_get _ _ (by rw [hn]; decide)]
    norm_num [P, mirror, pos]
  refine ⟨P, _, _, _, hN, blkdiag_eq h1, fun t ht => ⟨fun j => if j = 0 then 1 else t, ⟨?_, ?_⟩, ?_⟩,
    ?_, ?_, ?_⟩
  · intro i _
    simp [P, Finset.sum_range_succ]
  · refine ⟨(psd_one (a := 1) _ ?_).2 (by norm_num), (psd_one (a := t) _ ?_).2 ht, trivial⟩ <;> simp
  · simp [primalCost, P, Finset.sum_range_succ]
  · rintro y ⟨-, h, -⟩
    have := (psd_one (a := -1) _ (by norm_num [P])).1 h
    linarith
  · intro x
    refine Finset.sum_eq_zero fun t ht => ?_
    have hk := hnot _ (getD_mem (Finset.mem_range.1 ht))
    show (symmetric P).c ((maskIndex (symmetric P).s 0 cls).getD t 0) * x t = 0
    rw [hk, hc0, zero_mul]
  · refine dualCone_zero fun k => ?_
    have hk : (maskIndex (symmetric P).s 0 cls).getD k 0 = 0 := by
      by_cases hk : k < (maskIndex (symmetric P).s 0 cls).length
      · exact hnot _ (getD_mem hk)
      · simp [List.getD_eq_getElem?_getD, Nat.le_of_not_lt hk]
    simp only [mul_zero, Finset.sum_const_zero, sub_zero]
    show (symmetric P).c ((maskIndex (symmetric P).s 0 cls).getD k 0) = 0
    rw [hk, hc0]

end Verif.Matlab
