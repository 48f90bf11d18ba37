import Mathlib.Algebra.Field.Rat
import Mathlib.Tactic.Linarith
import Mathlib.Algebra.BigOperators.Field
import Mathlib.Tactic.FieldSimp
import Verif.Lemmas.CostInput

/-!
# C41: quadratic costs passed to the C interface
-/

namespace Verif.CostInput

open Finset

variable {R : Type} [Field R] [LinearOrder R] [IsStrictOrderedRing R]

/-- The value of the quadratic form of an `n` by `n` matrix. -/
def form (n : Nat) (M : Nat → Nat → R) (x : Nat → R) : R :=
  ∑ i ∈ range n, ∑ j ∈ range n, M i j * x i * x j

/-- C41, the matrix: for a square matrix with nonnegative quadratic form, the variables are distinct and
in range, and the entry that the registered cost contributes to the linear system at any two unknowns is
the one of the symmetric part of the matrix. -/
theorem C41_matrix (n : Nat) (M Y₀ : Nat → Nat → R) (h : ∀ x, 0 ≤ form n M x) :
    ∃ vars Y, nonZeroSubMat n n M Y₀ = .ok (vars, Y) ∧ vars.Nodup ∧ (∀ v ∈ vars, v < n) ∧
      ∀ u < n, ∀ v < n, Sup.Spec.entry vars Y u v = (M u v + M v u) / 2 := by
  refine ⟨_, _, nonZeroSubMat_sq n M Y₀, vars_nodup n M, fun v hv => (mem_vars.1 hv).1, ?_⟩
  intro u hu v hv
  unfold Sup.Spec.entry
  by_cases hm : u ∈ vars n M ∧ v ∈ vars n M
  · rw [if_pos hm]
    have key : ∀ a b, a ∈ vars n M → b ∈ vars n M →
        outer M (vars n M) (vars n M) 0 Y₀ ((vars n M).idxOf a) ((vars n M).idxOf b) =
          (M a b + M b a) / 2 := by
      intro a b ha hb
      rw [outer_eq _ _ _ _ _ (List.idxOf_lt_length_of_mem ha) (List.idxOf_lt_length_of_mem hb)]
      simp only [List.getD_eq_getElem?_getD,
        List.getElem?_eq_getElem (List.idxOf_lt_length_of_mem ha),
        List.getElem?_eq_getElem (List.idxOf_lt_length_of_mem hb), Option.getD_some, List.getElem_idxOf]
    rcases le_total ((vars n M).idxOf u) ((vars n M).idxOf v) with hl | hl
    · rw [max_eq_right hl, min_eq_left hl, key _ _ hm.2 hm.1, add_comm]
    · rw [max_eq_left hl, min_eq_right hl, key _ _ hm.1 hm.2]
  · rw [if_neg hm]
    have h2 : ∀ i < n, ∀ j < n, i ∉ vars n M → M i j + M j i = 0 := by
      intro i hi j hj hv
      have hd : M i i ≤ 0 := by
        by_contra hc
        exact hv (mem_vars.2 ⟨hi, not_le.1 hc⟩)
      exact cross_zero (fun x => h x) hi hj hd
    rcases not_and_or.1 hm with hm | hm
    · rw [h2 u hu v hv hm, zero_div]
    · rw [add_comm, h2 v hv u hu hm, zero_div]

/-- C41, the value: the registered cost has the value of the matrix passed in, at every point. -/
theorem C41_value (n : Nat) (M Y₀ : Nat → Nat → R) (h : ∀ x, 0 ≤ form n M x) :
    ∃ vars Y, nonZeroSubMat n n M Y₀ = .ok (vars, Y) ∧
      ∀ x : Nat → R, form vars.length Y (fun i => x (vars.getD i 0)) = form n M x := by
  obtain ⟨vs, Y, h1, h2, h3, h4⟩ := C41_matrix n M Y₀ h
  refine ⟨vs, Y, h1, fun x => ?_⟩
  have hY : vs = vars n M ∧ Y = outer M (vars n M) (vars n M) 0 Y₀ := by
    rw [nonZeroSubMat_sq] at h1
    simp only [Outcome.ok.injEq, Prod.mk.injEq] at h1
    exact ⟨h1.1.symm, h1.2.symm⟩
  have hs : ∀ i < vs.length, ∀ j < vs.length, Y i j = Sup.Spec.entry vs Y (vs.getD i 0) (vs.getD j 0) := by
    intro i hi j hj
    have e : ∀ i < vs.length, vs.getD i 0 ∈ vs ∧ vs.idxOf (vs.getD i 0) = i := by
      intro i hi
      rw [List.getD_eq_getElem?_getD, List.getElem?_eq_getElem hi, Option.getD_some]
      exact ⟨List.getElem_mem hi, h2.idxOf_getElem i hi⟩
    unfold Sup.Spec.entry
    rw [if_pos ⟨(e i hi).1, (e j hj).1⟩, (e i hi).2, (e j hj).2]
    rcases le_total i j with hl | hl
    · rw [max_eq_right hl, min_eq_left hl, hY.2]
      rw [hY.1] at hi hj
      rw [outer_eq _ _ _ _ _ hi hj, outer_eq _ _ _ _ _ hj hi, add_comm]
    · rw [max_eq_left hl, min_eq_right hl]
  have g : ∀ F : Nat → R, (∀ u, u ∉ vs → F u = 0) →
      ∑ i ∈ range vs.length, F (vs.getD i 0) = ∑ u ∈ range n, F u := sum_list h2 h3
  unfold form
  rw [sum_congr rfl fun i hi => sum_congr rfl fun j hj => by
    rw [hs i (mem_range.1 hi) j (mem_range.1 hj)]]
  have z : ∀ u v, u ∉ vs ∨ v ∉ vs → Sup.Spec.entry vs Y u v = 0 := by
    intro u v h
    unfold Sup.Spec.entry
    rw [if_neg (by tauto)]
  rw [sum_congr rfl fun i _ => g (fun v => Sup.Spec.entry vs Y (vs.getD i 0) v * x (vs.getD i 0) * x v)
    fun u hu => by rw [z _ _ (Or.inr hu), zero_mul, zero_mul]]
  rw [g (fun u => ∑ v ∈ range n, Sup.Spec.entry vs Y u v * x u * x v)
    fun u hu => sum_eq_zero fun v _ => by rw [z _ _ (Or.inl hu), zero_mul, zero_mul]]
  have hsum : ∑ i ∈ range n, ∑ j ∈ range n, M j i * x i * x j =
      ∑ i ∈ range n, ∑ j ∈ range n, M i j * x i * x j := by
    rw [sum_comm]
    exact sum_congr rfl fun i _ => sum_congr rfl fun j _ => by ring
  have : ∑ i ∈ range n, ∑ j ∈ range n, Sup.Spec.entry vs Y i j * x i * x j =
      (∑ i ∈ range n, ∑ j ∈ range n, M i j * x i * x j +
        ∑ i ∈ range n, ∑ j ∈ range n, M j i * x i * x j) / 2 := by
    rw [← sum_add_distrib, sum_div]
    refine sum_congr rfl fun i hi => ?_
    rw [← sum_add_distrib, sum_div]
    refine sum_congr rfl fun j hj => ?_
    rw [h4 i (mem_range.1 hi) j (mem_range.1 hj)]
    ring
  rw [this, hsum]
  ring

/-- A positive semidefinite matrix with a zero row. -/
def exM (i j : Nat) : ℚ := if i = 1 ∨ j = 1 then 0 else if i = j then 2 else -1

example : ∀ x : Nat → ℚ, 0 ≤ form 3 exM x := by
  intro x
  have : form 3 exM x = x 0 ^ 2 + x 2 ^ 2 + (x 0 - x 2) ^ 2 := by
    simp [form, exM, sum_range_succ]
    ring
  rw [this]
  positivity

/-- C41 fails for matrices that are not positive semidefinite, which are accepted too: the matrix with
zero diagonal and off-diagonal entries 1 becomes the cost zero on no variables, and `-x²` too (F9). -/
theorem C41_indefinite_violated :
    (∃ M : Nat → Nat → ℚ, (∀ i j, M i j = M j i) ∧ ∃ x, form 2 M x ≠ 0 ∧
      ∀ Y₀, ∃ Y, nonZeroSubMat 2 2 M Y₀ = .ok ([], Y)) ∧
    ∃ M : Nat → Nat → ℚ, form 1 M (fun _ => 1) = -1 ∧ ∀ Y₀, ∃ Y, nonZeroSubMat 1 1 M Y₀ = .ok ([], Y) := by
  refine ⟨⟨fun i j => if i = j then 0 else 1, fun i j => by simp only [eq_comm], fun _ => 1,
    by decide +kernel, fun Y₀ => ⟨_, rfl⟩⟩, fun _ _ => -1, by decide +kernel, fun Y₀ => ⟨_, rfl⟩⟩

/-- Rows beyond the columns are read out of range; columns beyond the rows are ignored. -/
theorem C41_shape (rows cols : Nat) (M Y₀ : Nat → Nat → R) :
    nonZeroSubMat rows cols M Y₀ = if cols < rows then .ub else nonZeroSubMat rows rows M Y₀ := by
  unfold nonZeroSubMat
  by_cases h : cols < rows
  · rw [if_pos h, if_pos h]
  · rw [if_neg h, if_neg h, if_neg (lt_irrefl _)]

example : nonZeroSubMat 2 1 exM exM = .ub := by rw [C41_shape]; rfl

end Verif.CostInput
