import Verif.Model.Equality
import Verif.Spec.ConstraintManager
import Mathlib.Algebra.BigOperators.Ring.Finset
import Mathlib.Algebra.BigOperators.Intervals
import Mathlib.Algebra.Order.Ring.Rat
import Mathlib.Tactic.Ring
import Mathlib.Tactic.SplitIfs
import Mathlib.Tactic.NormNum

/-!
# Properties of equality constraints and quadratic costs (C40, C52)
-/

namespace Verif.Equality

open Finset Schur

variable {R : Type} [Field R]

/-! ### C40 -/

/-- In a system with the variables first and the multipliers last (`nv` variables, at least as many
as `A` has columns), the equality constraint contributes `[0 A'; A 0]` and the right-hand side `b` in
the rows of the multipliers, and nothing to the other data. -/
theorem C40_block (o : Con R) (hb : o.nb = o.p) {nv : Nat} (hv : o.q ≤ nv) (s : Sys R)
    (hs : s.rows = nv + o.p) :
    ∃ t, schur o true s = .ok t ∧ t.rows = s.rows ∧
      (∀ i j, t.G i j =
        if nv ≤ i ∧ i < nv + o.p ∧ j < o.q then o.A (i - nv) j
        else if nv ≤ j ∧ j < nv + o.p ∧ i < o.q then o.A (j - nv) i else 0) ∧
      (∀ i, t.AQc i = if nv ≤ i ∧ i < nv + o.p then o.b (i - nv) else 0) ∧
      (∀ i, t.AW i = 0) ∧ t.wc = 0 ∧ t.cQc = 0 := by
  unfold schur
  have e : nv + o.p - o.p = nv := by omega
  simp only [if_true, Sys.setZero, hb, ne_eq, not_true_eq_false, or_false]
  rw [if_neg (by omega)]
  refine ⟨_, rfl, rfl, fun i j => ?_, fun i => ?_, fun i => rfl, rfl, rfl⟩
  · simp only [setTopRight, setBottomLeft, hs, e]
    by_cases h1 : i < o.q ∧ nv ≤ j ∧ j < nv + o.p
    · rw [if_pos h1, if_neg (by omega), if_pos ⟨h1.2.1, h1.2.2, h1.1⟩]
    · rw [if_neg h1]
      by_cases h2 : nv ≤ i ∧ i < nv + o.p ∧ j < o.q
      · rw [if_pos ⟨⟨h2.1, h2.2.1⟩, h2.2.2⟩, if_pos h2]
      · rw [if_neg (by tauto), if_neg h2, if_neg (by tauto)]
  · simp only [setBottom, hs, e]

/-- A solution of the system with the right-hand side scaled by `k` satisfies `A x = k b`. -/
theorem C40_solution (o : Con R) (hb : o.nb = o.p) {nv : Nat} (hv : o.q ≤ nv) (s : Sys R)
    (hs : s.rows = nv + o.p) :
    ∃ t, schur o true s = .ok t ∧ ∀ (z : Nat → R) (k : R),
      (∀ i < t.rows, ∑ j ∈ range t.rows, t.G i j * z j = k * t.AQc i) →
        ∀ r < o.p, ∑ j ∈ range o.q, o.A r j * z j = k * o.b r := by
  obtain ⟨t, h1, h2, h3, h4, -⟩ := C40_block o hb hv s hs
  refine ⟨t, h1, fun z k h r hr => ?_⟩
  have h5 := h (nv + r) (by omega)
  rw [h4, if_pos (by omega), show nv + r - nv = r by omega] at h5
  rw [← h5, h2, hs]
  have h6 : o.q ≤ nv + o.p := by omega
  rw [← sum_range_add_sum_Ico _ h6]
  rw [sum_eq_zero (s := Ico o.q (nv + o.p)), add_zero]
  · refine sum_congr rfl fun j hj => ?_
    rw [h3, if_pos ⟨by omega, by omega, mem_range.1 hj⟩, show nv + r - nv = r by omega]
  · intro j hj
    rw [mem_Ico] at hj
    rw [h3, if_neg (by omega), if_neg (by omega), zero_mul]

/-- When accumulating, exactly this contribution is added. -/
theorem C40_accumulate (o : Con R) (hb : o.nb = o.p) {nv : Nat} (hv : o.q ≤ nv) (s : Sys R)
    (hs : s.rows = nv + o.p) :
    ∃ t u, schur o true s = .ok t ∧ schur o false s = .ok u ∧
      (∀ i j, u.G i j = s.G i j + t.G i j) ∧ (∀ i, u.AQc i = s.AQc i + t.AQc i) ∧
      u.AW = s.AW ∧ u.wc = s.wc ∧ u.cQc = s.cQc := by
  obtain ⟨t, h1, h2, h3, h4, -⟩ := C40_block o hb hv s hs
  refine ⟨t, ?_⟩
  suffices h : ∃ u, schur o false s = .ok u ∧
      (∀ i j, u.G i j = s.G i j + t.G i j) ∧ (∀ i, u.AQc i = s.AQc i + t.AQc i) ∧
      u.AW = s.AW ∧ u.wc = s.wc ∧ u.cQc = s.cQc from
    let ⟨u, h⟩ := h
    ⟨u, h1, h⟩
  unfold schur
  have e : nv + o.p - o.p = nv := by omega
  simp only [Bool.false_eq_true, if_false, hb, ne_eq, not_true_eq_false, or_false]
  rw [if_neg (by omega)]
  refine ⟨_, rfl, fun i j => ?_, fun i => ?_, rfl, rfl, rfl⟩
  · rw [h3]
    simp only [setTopRight, setBottomLeft, hs, e]
    by_cases h1 : i < o.q ∧ nv ≤ j ∧ j < nv + o.p
    · rw [if_pos h1, if_neg (by omega), if_neg (by omega), if_pos ⟨h1.2.1, h1.2.2, h1.1⟩,
        show nv + (j - nv) = j by omega]
    · rw [if_neg h1]
      by_cases h2 : nv ≤ i ∧ i < nv + o.p ∧ j < o.q
      · rw [if_pos ⟨⟨h2.1, h2.2.1⟩, h2.2.2⟩, if_pos h2, show nv + (i - nv) = i by omega]
      · rw [if_neg (by tauto), if_neg h2, if_neg (by tauto), add_zero]
  · rw [h4]
    simp only [setBottom, hs, e]
    split_ifs with h
    · rw [show nv + (i - nv) = i by omega]
    · rw [add_zero]

/-- An equality constraint contributes nothing to the norms of the direction, and reads its
multipliers from the end of the solution. -/
theorem C40_step (o : Con R) {nv : Nat} (y : Nat → R) :
    ∃ t, prepareStep o (nv + o.nb) y = .ok (t, 0, 0) ∧ ∀ i, t.lambda i = y (nv + i) := by
  unfold prepareStep
  rw [if_neg (by omega)]
  refine ⟨_, rfl, fun i => ?_⟩
  simp only
  rw [show nv + o.nb - o.nb + i = nv + i by omega]

/-- The equation `x₀ + 2 x₁ = 5` in two variables: one multiplier. -/
example : (schur (⟨1, 2, 1, fun _ j => if j = 0 then 1 else 2, fun _ => 5, fun _ => 0⟩ : Con ℚ) true
      ⟨3, fun _ _ => 7, fun _ => 7, fun _ => 7, 7, 7⟩).toOption.map
      (fun t => ((List.range 3).map fun i => (List.range 3).map (t.G i),
        (List.range 3).map t.AQc)) =
    some ([[0, 0, 1], [0, 0, 2], [1, 2, 0]], [0, 0, 5]) := by
  decide +kernel

/-- A quadratic cost contributes its matrix, and adds exactly it when accumulating. -/
theorem C40_cost (n : Nat) (Q : Nat → Nat → R) (s : Sys R) (hs : n ≤ s.rows) :
    ∃ t u, costSchur n Q true s = .ok t ∧ costSchur n Q false s = .ok u ∧
      (∀ i j, t.G i j = if i < n ∧ j < n then Q i j else 0) ∧
      (∀ i j, u.G i j = s.G i j + t.G i j) ∧ (∀ i, t.AW i = 0 ∧ t.AQc i = 0) ∧ t.wc = 0 ∧
      t.cQc = 0 ∧ u.AW = s.AW ∧ u.AQc = s.AQc ∧ u.wc = s.wc ∧ u.cQc = s.cQc := by
  unfold costSchur
  have h : ¬ s.rows < n := by omega
  simp only [if_neg h, if_true, Bool.false_eq_true, if_false]
  refine ⟨(⟨s.rows, setTopLeft n n Q fun _ _ => 0, fun _ => 0, fun _ => 0, 0, 0⟩ : Sys R), _, rfl,
    rfl, fun i j => rfl, fun i j => ?_, fun i => ⟨rfl, rfl⟩, rfl, rfl, rfl, rfl, rfl, rfl⟩
  simp only [setTopLeft]
  split_ifs
  · rfl
  · rw [add_zero]

/-! ### C52 -/

/-- A temporary equality constraint gets one multiplier for each of its rows. -/
theorem C52_temporary_partial {κ : Type} (s s' : CM.Manager κ) (x : κ) (p : Nat) (vars : List Int)
    (h : addOn s .temporary x p vars = .ok (true, s')) :
    CM.Spec.numUnknowns s' = CM.Spec.numUnknowns s + p := by
  unfold addOn CM.Manager.addEqualityOn at h
  simp only at h
  cases hu : CM.isUnique s.maxVars vars with
  | throws => rw [hu] at h; simp [Outcome.bind] at h
  | ub => rw [hu] at h; simp [Outcome.bind] at h
  | diverges => rw [hu] at h; simp [Outcome.bind] at h
  | ok u =>
    rw [hu] at h
    cases u
    · simp [Outcome.bind] at h
    · simp only [Outcome.bind, if_true, Outcome.ok.injEq, Prod.mk.injEq, true_and] at h
      subst h
      simp [CM.Spec.numUnknowns, add_assoc]

/-- A named equality constraint object is accepted but gets no multiplier, whatever its rows. -/
theorem C52_named_violated {κ : Type} (s s' : CM.Manager κ) (x : κ) (p : Nat) (vars : List Int)
    (h : addOn s .named x p vars = .ok (true, s')) :
    CM.Spec.numUnknowns s' = CM.Spec.numUnknowns s := by
  unfold addOn CM.Manager.addConstraintOn at h
  simp only at h
  cases hu : CM.isUnique s.maxVars vars with
  | throws => rw [hu] at h; simp [Outcome.bind] at h
  | ub => rw [hu] at h; simp [Outcome.bind] at h
  | diverges => rw [hu] at h; simp [Outcome.bind] at h
  | ok u =>
    rw [hu] at h
    cases u
    · simp [Outcome.bind] at h
    · simp only [Outcome.bind, if_true, Outcome.ok.injEq, Prod.mk.injEq, true_and] at h
      subst h
      simp [CM.Spec.numUnknowns]

/-- The call with a named object is accepted, and its system then has no row for the multiplier: for
`x₀ + 2 x₁ = 5` the two blocks overlap and the matrix is `[0 1; 1 2]`. -/
theorem C52_named_overlap_violated :
    (addOn (CM.Manager.empty.setNumberOfVariables 2 : CM.Manager Unit) .named () 1 [0, 1] =
      .ok (true, ⟨[((), 2)], [[0, 1]], [[]], 2, 2⟩)) ∧
    (schur (⟨1, 2, 1, fun _ j => if j = 0 then 1 else 2, fun _ => 5, fun _ => 0⟩ : Con ℚ) true
      ⟨2, fun _ _ => 7, fun _ => 7, fun _ => 7, 7, 7⟩).toOption.map
      (fun t => ((List.range 2).map fun i => (List.range 2).map (t.G i),
        (List.range 2).map t.AQc)) =
    some ([[0, 1], [1, 2]], [0, 5]) := by
  decide +kernel

example : addOn (CM.Manager.empty.setNumberOfVariables 2 : CM.Manager Unit) .temporary () 1 [0, 1] =
    .ok (true, ⟨[((), 3)], [[0, 1, 2]], [[2]], 2, 3⟩) := by
  decide +kernel

end Verif.Equality
