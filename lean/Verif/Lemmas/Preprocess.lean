import Verif.Spec.Preprocess
import Mathlib.Algebra.BigOperators.Ring.Finset
import Mathlib.Algebra.Order.BigOperators.Group.Finset
import Mathlib.Tactic.Linarith
import Mathlib.Tactic.Ring
import Mathlib.Tactic.SplitIfs
import Mathlib.Tactic.Positivity

/-!
# Lemmas on two-sided linear inequalities
-/

namespace Verif.Preprocess

open Finset Spec

variable {R : Type} [Field R] [LinearOrder R] [IsStrictOrderedRing R]

theorem norm_pos {m : Nat} {a : Nat → R} {b : R} (h : (∃ j < m, a j ≠ 0) ∨ b ≠ 0) :
    0 < (∑ j ∈ range m, a j * a j) + b * b := by
  have h0 : 0 ≤ ∑ j ∈ range m, a j * a j := sum_nonneg fun j _ => mul_self_nonneg _
  rcases h with ⟨j, hj, h⟩ | h
  · have h1 : a j * a j ≤ ∑ j ∈ range m, a j * a j :=
      single_le_sum (fun j _ => mul_self_nonneg (a j)) (mem_range.2 hj)
    have h2 : 0 < a j * a j := mul_self_pos.2 h
    have := mul_self_nonneg b
    linarith
  · have : 0 < b * b := mul_self_pos.2 h
    linarith

theorem dot_smul (m : Nat) (c : R) (a x : Nat → R) : dot m (fun j => c * a j) x = c * dot m a x := by
  unfold dot
  rw [mul_sum]
  exact sum_congr rfl fun j _ => by ring

/-- The scaled row has the same solutions. -/
theorem scaled_spec {sqrt : R → R} (hs : ∀ x, 0 ≤ x → SqrtAt sqrt x) {m : Nat} {a : Nat → R} {b : R}
    (h : (∃ j < m, a j ≠ 0) ∨ b ≠ 0) (sign : R) :
    ∃ k, 0 < k ∧ scaled sqrt m sign a b = some (fun j => sign * k * a j, sign * k * b) := by
  have hp := norm_pos h
  obtain ⟨h1, h2⟩ := hs _ hp.le
  have h3 : sqrt ((∑ j ∈ range m, a j * a j) + b * b) ≠ 0 := by
    intro h0
    rw [h0, mul_zero] at h2
    exact hp.ne h2
  refine ⟨1 / sqrt ((∑ j ∈ range m, a j * a j) + b * b), ?_, ?_⟩
  · exact div_pos one_pos (lt_of_le_of_ne h1 h3.symm)
  · unfold scaled
    simp only
    rw [if_neg h3]

theorem appendRow_ok {M : Mat R} {m : Nat} (h : Fits M m) (r : Row R) :
    appendRow M m r = .ok ⟨m, M.rows ++ [r]⟩ := by
  unfold appendRow
  rcases h with h | h
  · simp [h]
  · by_cases h' : M.rows.length = 0 <;> simp [h, h']

theorem ineq_append {M : Mat R} {m : Nat} (h : Fits M m) (r : Row R) (x : Nat → R) :
    FeasibleIneq ⟨m, M.rows ++ [r]⟩ x ↔ FeasibleIneq M x ∧
      ∃ a b, r = some (a, b) ∧ dot m a x ≤ b := by
  unfold FeasibleIneq
  simp only [List.mem_append, List.mem_singleton, or_imp, forall_and, forall_eq]
  rcases h with h | h
  · simp [h]
  · rw [h]

theorem eq_append {M : Mat R} {m : Nat} (h : Fits M m) (r : Row R) (x : Nat → R) :
    FeasibleEq ⟨m, M.rows ++ [r]⟩ x ↔ FeasibleEq M x ∧
      ∃ a b, r = some (a, b) ∧ dot m a x = b := by
  unfold FeasibleEq
  simp only [List.mem_append, List.mem_singleton, or_imp, forall_and, forall_eq]
  rcases h with h | h
  · simp [h]
  · rw [h]

theorem exists_row {P : (Nat → R) → R → Prop} {a : Nat → R} {b : R} {r : Row R}
    (h : r = some (a, b)) : (∃ a b, r = some (a, b) ∧ P a b) ↔ P a b := by
  subst h
  constructor
  · rintro ⟨a', b', h, hp⟩
    simp only [Option.some.injEq, Prod.mk.injEq] at h
    obtain ⟨rfl, rfl⟩ := h
    exact hp
  · intro h
    exact ⟨a, b, rfl, h⟩

theorem processRow_spec {sqrt : R → R} (hs : ∀ x, 0 ≤ x → SqrtAt sqrt x) {m : Nat}
    {a : Nat → R} {lb ub : R} (hz : NonZero m (a, lb, ub)) {s : Mat R × Mat R} (h1 : Fits s.1 m)
    (h2 : Fits s.2 m) :
    ∃ t, processRow sqrt m a lb ub s = .ok t ∧ Fits t.1 m ∧ Fits t.2 m ∧
      ∀ x, (FeasibleIneq t.1 x ∧ FeasibleEq t.2 x) ↔
        (FeasibleIneq s.1 x ∧ FeasibleEq s.2 x ∧ Within m (a, lb, ub) x) := by
  have hl : (∃ j < m, a j ≠ 0) ∨ lb ≠ 0 := hz.imp id And.left
  have hu : (∃ j < m, a j ≠ 0) ∨ ub ≠ 0 := hz.imp id And.right
  obtain ⟨k, hk, ek⟩ := scaled_spec hs hu 1
  obtain ⟨k', hk', ek'⟩ := scaled_spec hs hl (-1)
  have f1 : ∀ x, dot m (fun j => 1 * k * a j) x ≤ 1 * k * ub ↔ dot m a x ≤ ub := by
    intro x
    rw [dot_smul, one_mul]
    exact mul_le_mul_iff_right₀ hk
  have f2 : ∀ x, dot m (fun j => 1 * k * a j) x = 1 * k * ub ↔ dot m a x = ub := by
    intro x
    rw [dot_smul, one_mul]
    exact mul_right_inj' hk.ne'
  have f3 : ∀ x, dot m (fun j => -1 * k' * a j) x ≤ -1 * k' * lb ↔ lb ≤ dot m a x := by
    intro x
    rw [dot_smul, show -1 * k' * dot m a x = -(k' * dot m a x) by ring,
      show -1 * k' * lb = -(k' * lb) by ring, neg_le_neg_iff]
    exact mul_le_mul_iff_right₀ hk'
  unfold processRow
  by_cases he : lb = ub
  · rw [if_pos he, appendRow_ok h2]
    refine ⟨_, rfl, h1, .inr rfl, fun x => ?_⟩
    simp only
    rw [eq_append h2, exists_row ek, f2]
    simp only [Within, he, ne_eq, not_true_eq_false, false_and, or_false]
    rw [le_antisymm_iff]
    tauto
  · rw [if_neg he]
    have hw : ∀ x, Within m (a, lb, ub) x ↔ (-huge < lb → lb ≤ dot m a x) ∧
        (ub < huge → dot m a x ≤ ub) := by
      intro x
      simp only [Within, ne_eq, he, not_false_eq_true, true_and, huge]
      rw [← not_lt (a := (-100000000 : R)) (b := lb), ← not_lt (a := ub) (b := (100000000 : R))]
      rw [or_comm, ← imp_iff_not_or, or_comm, ← imp_iff_not_or]
    by_cases hu' : ub < huge <;> by_cases hl' : -huge < lb
    · rw [if_pos hu', appendRow_ok h1]
      simp only [Outcome.bind_ok, if_pos hl']
      rw [appendRow_ok (.inr rfl)]
      refine ⟨_, rfl, .inr rfl, h2, fun x => ?_⟩
      simp only
      rw [ineq_append (M := ⟨m, s.1.rows ++ [scaled sqrt m 1 a ub]⟩) (.inr rfl), ineq_append h1,
        exists_row ek, exists_row ek', f1, f3, hw]
      exact ⟨fun ⟨⟨⟨a, b⟩, c⟩, d⟩ => ⟨a, d, fun _ => c, fun _ => b⟩,
        fun ⟨a, d, c, b⟩ => ⟨⟨⟨a, b hu'⟩, c hl'⟩, d⟩⟩
    · rw [if_pos hu', appendRow_ok h1]
      simp only [Outcome.bind_ok, if_neg hl']
      refine ⟨_, rfl, .inr rfl, h2, fun x => ?_⟩
      simp only
      rw [ineq_append h1, exists_row ek, f1, hw]
      exact ⟨fun ⟨⟨a, b⟩, d⟩ => ⟨a, d, fun h => absurd h hl', fun _ => b⟩,
        fun ⟨a, d, _, b⟩ => ⟨⟨a, b hu'⟩, d⟩⟩
    · rw [if_neg hu']
      simp only [Outcome.bind_ok, if_pos hl']
      rw [appendRow_ok h1]
      refine ⟨_, rfl, .inr rfl, h2, fun x => ?_⟩
      simp only
      rw [ineq_append h1, exists_row ek', f3, hw]
      exact ⟨fun ⟨⟨a, c⟩, d⟩ => ⟨a, d, fun _ => c, fun h => absurd h hu'⟩,
        fun ⟨a, d, c, _⟩ => ⟨⟨a, c hl'⟩, d⟩⟩
    · rw [if_neg hu']
      simp only [Outcome.bind_ok, if_neg hl']
      refine ⟨_, rfl, h1, h2, fun x => ?_⟩
      simp only
      rw [hw]
      exact ⟨fun ⟨a, d⟩ => ⟨a, d, fun h => absurd h hl', fun h => absurd h hu'⟩,
        fun ⟨a, d, _⟩ => ⟨a, d⟩⟩

end Verif.Preprocess
