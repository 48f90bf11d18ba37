import Verif.Lemmas.Gap
import Verif.Lemmas.StepScalar

/-!
# Lemmas for C95: two full steps of a matrix inequality, in terms of real matrices
-/

namespace Verif.Gap

open Finset Spec
open StepScalar (Full)

section Trace

variable {ι : Type} [Fintype ι] [DecidableEq ι]

/-- The slack in the common basis. -/
theorem basis_slack {W S V : Matrix ι ι ℝ} {d : ι → ℝ} (hV : IsUnit V) (hVW : W = V * V.transpose)
    (h : W * S * V = V * Matrix.diagonal d) : V.transpose * S * V = Matrix.diagonal d := by
  refine hV.mul_left_cancel ?_
  rw [← h, hVW]
  simp only [Matrix.mul_assoc]

theorem trace_diagonal_mul (r : ι → ℝ) (T : Matrix ι ι ℝ) : (Matrix.diagonal r * T).trace = ∑ i, r i * T i i := by
  simp [Matrix.trace]

theorem trace_square (r : ι → ℝ) (T : Matrix ι ι ℝ) :
    (Matrix.diagonal r * T * (Matrix.diagonal r * T)).trace = ∑ i, ∑ j, r i * r j * (T i j * T j i) := by
  simp only [Matrix.trace, Matrix.diag_apply, Matrix.mul_apply, Matrix.diagonal_apply, ite_mul,
    zero_mul, sum_ite_eq, mem_univ, if_true]
  exact sum_congr rfl fun i _ => sum_congr rfl fun j _ => by ring

/-- The sum of squares of the direction. -/
theorem trace_norm {W S V : Matrix ι ι ℝ} {d : ι → ℝ} (hV : IsUnit V) (h : W * S * V = V * Matrix.diagonal d) :
    (W * S * (W * S)).trace - 2 * (W * S).trace + Fintype.card ι = ∑ i, (1 - d i) ^ 2 := by
  obtain ⟨U, h1, h2⟩ := isUnit_iff_exists.1 hV
  have e : W * S = V * Matrix.diagonal d * U := by
    rw [← h, Matrix.mul_assoc, h1, Matrix.mul_one]
  have e1 : (W * S).trace = ∑ i, d i := by
    rw [e, Matrix.trace_mul_comm, ← Matrix.mul_assoc, h2, Matrix.one_mul, Matrix.trace_diagonal]
  have e2 : (W * S * (W * S)).trace = ∑ i, d i * d i := by
    have e3 : W * S * (W * S) = V * (Matrix.diagonal d * Matrix.diagonal d) * U := by
      calc W * S * (W * S) = W * S * (V * Matrix.diagonal d * U) := by rw [← e]
        _ = W * S * V * Matrix.diagonal d * U := by simp only [Matrix.mul_assoc]
        _ = _ := by rw [h]; simp only [Matrix.mul_assoc]
    rw [e3, Matrix.trace_mul_comm, ← Matrix.mul_assoc, h2, Matrix.one_mul, Matrix.diagonal_mul_diagonal,
      Matrix.trace_diagonal]
  rw [e1, e2]
  simp only [sub_sq, one_pow, mul_one, sum_add_distrib, sum_sub_distrib, sum_const, card_univ, nsmul_eq_mul, ← mul_sum]
  simp only [sq]
  ring

/-- The inequality behind quadratic convergence, in the common basis. -/
theorem quadratic_basis {d r : ι → ℝ} {T : Matrix ι ι ℝ} (hT : T.transpose = T) (hr : ∀ i, Full (1 - d i) (r i))
    (hd : ∀ i, (1 - d i) ^ 2 ≤ 1) :
    1 / 2 * ((Matrix.diagonal r * T * (Matrix.diagonal r * T)).trace - 2 * (Matrix.diagonal r * T).trace +
        Fintype.card ι) +
      (((2 : ℝ) • Matrix.diagonal r - Matrix.diagonal r * T * Matrix.diagonal r -
        Matrix.diagonal fun i => 2 - d i) * (T - Matrix.diagonal d)).trace ≤ ∑ i, ((1 - d i) ^ 2) ^ 2 := by
  have hsym : ∀ i j, T j i = T i j := fun i j => congrFun (congrFun hT i) j
  have e1 : (((2 : ℝ) • Matrix.diagonal r - Matrix.diagonal r * T * Matrix.diagonal r -
        Matrix.diagonal fun i => 2 - d i) * (T - Matrix.diagonal d)).trace =
      ∑ i, ((2 * r i - (2 - d i)) * (T i i - d i) + r i ^ 2 * T i i * d i) -
        (Matrix.diagonal r * T * (Matrix.diagonal r * T)).trace := by
    have e2 : (Matrix.diagonal r * T * Matrix.diagonal r * Matrix.diagonal d).trace = ∑ i, r i ^ 2 * T i i * d i := by
      simp only [Matrix.trace, Matrix.diag_apply, Matrix.mul_diagonal, Matrix.diagonal_mul]
      exact sum_congr rfl fun i _ => by ring
    have e3 : (2 : ℝ) • Matrix.diagonal r - Matrix.diagonal r * T * Matrix.diagonal r -
        (Matrix.diagonal fun i => 2 - d i) = Matrix.diagonal (fun i => 2 * r i - (2 - d i)) -
          Matrix.diagonal r * T * Matrix.diagonal r := by
      ext i j
      by_cases h : i = j
      · subst h
        simp
        ring
      · simp [Matrix.diagonal_apply_ne _ h]
    rw [e3, Matrix.sub_mul, Matrix.mul_sub, Matrix.mul_sub, Matrix.trace_sub, Matrix.trace_sub, Matrix.trace_sub,
      e2, trace_diagonal_mul, Matrix.diagonal_mul_diagonal, Matrix.trace_diagonal, Matrix.mul_assoc (Matrix.diagonal r * T),
      sum_add_distrib]
    simp only [mul_sub, sum_sub_distrib]
    ring
  have e4 : ∑ i, r i ^ 2 * T i i ^ 2 ≤ (Matrix.diagonal r * T * (Matrix.diagonal r * T)).trace := by
    rw [trace_square]
    refine sum_le_sum fun i _ => ?_
    refine le_trans (le_of_eq ?_) (single_le_sum (f := fun j => r i * r j * (T i j * T j i)) (fun j _ => ?_) (mem_univ i))
    · ring
    · have h1 := (hr i).pos
      have h2 := (hr j).pos
      rw [hsym]
      exact mul_nonneg (mul_nonneg h1.le h2.le) (mul_self_nonneg (T j i))
  rw [e1, trace_diagonal_mul]
  have e5 : (Fintype.card ι : ℝ) = ∑ _i : ι, (1 : ℝ) := by simp
  have key : ∑ i, (-(1 / 2) * (r i ^ 2 * T i i ^ 2) - r i * T i i + 1 / 2 +
      ((2 * r i - (2 - d i)) * (T i i - d i) + r i ^ 2 * T i i * d i)) ≤ ∑ i, ((1 - d i) ^ 2) ^ 2 := by
    refine sum_le_sum fun i _ => ?_
    obtain ⟨h1, h2⟩ := (hr i).bounds (hd i)
    have h3 := (hr i).pos
    set x := T i i
    set a := r i
    set f := (1 + (1 - d i)) / a - 1 with hf
    set p := 1 - a * (1 - (1 - d i)) with hp
    have e6 : -(1 / 2) * (a ^ 2 * x ^ 2) - a * x + 1 / 2 + ((2 * a - (2 - d i)) * (x - d i) + a ^ 2 * x * d i) =
        -(1 / 2) * (1 - a * x) ^ 2 + (1 - a * x) * (p + f) - f * p := by
      rw [hf, hp]
      field_simp
      ring
    rw [e6]
    nlinarith [sq_nonneg ((1 - a * x) - (p + f))]
  simp only [sum_add_distrib, sum_sub_distrib, ← mul_sum] at key ⊢
  rw [e5]
  simp only [sum_const, card_univ, nsmul_eq_mul, mul_one] at key ⊢
  linarith

/-- Two full steps of a matrix inequality. -/
theorem quadratic_trace {W W' S S' V : Matrix ι ι ℝ} {d r : ι → ℝ} (hV : IsUnit V) (hVW : W = V * V.transpose)
    (h : W * S * V = V * Matrix.diagonal d) (hW' : W' = V * Matrix.diagonal r * V.transpose) (hS' : S'.transpose = S')
    (hr : ∀ i, Full (1 - d i) (r i)) (hd : ∀ i, (1 - d i) ^ 2 ≤ 1) :
    1 / 2 * ((W' * S' * (W' * S')).trace - 2 * (W' * S').trace + Fintype.card ι) +
      (((2 : ℝ) • W' - W' * S' * W' - ((2 : ℝ) • W - W * S * W)) * (S' - S)).trace ≤ ∑ i, ((1 - d i) ^ 2) ^ 2 := by
  have hD := basis_slack hV hVW h
  have hT : (V.transpose * S' * V).transpose = V.transpose * S' * V := by
    simp only [Matrix.transpose_mul, Matrix.transpose_transpose, hS', Matrix.mul_assoc]
  have key := quadratic_basis hT hr hd
  set T := V.transpose * S' * V with hTd
  have e1 : (W' * S').trace = (Matrix.diagonal r * T).trace := by
    rw [hW', hTd, Matrix.mul_assoc, Matrix.mul_assoc, Matrix.trace_mul_comm]
    simp only [Matrix.mul_assoc]
  have e2 : (W' * S' * (W' * S')).trace = (Matrix.diagonal r * T * (Matrix.diagonal r * T)).trace := by
    rw [hW', hTd, Matrix.mul_assoc, Matrix.mul_assoc, Matrix.mul_assoc, Matrix.trace_mul_comm]
    simp only [Matrix.mul_assoc]
  have e3 : (2 : ℝ) • W' - W' * S' * W' - ((2 : ℝ) • W - W * S * W) =
      V * ((2 : ℝ) • Matrix.diagonal r - Matrix.diagonal r * T * Matrix.diagonal r -
        Matrix.diagonal fun i => 2 - d i) * V.transpose := by
    have e4 : (Matrix.diagonal fun i => 2 - d i) = (2 : ℝ) • 1 - V.transpose * S * V := by
      rw [hD]
      ext i j
      by_cases h : i = j
      · subst h; simp
      · simp [Matrix.diagonal_apply_ne _ h, Matrix.one_apply_ne h]
    rw [e4, hW', hVW, hTd]
    simp only [Matrix.mul_sub, Matrix.sub_mul, Matrix.mul_smul, Matrix.smul_mul, Matrix.mul_one, Matrix.mul_assoc]
  have e5 : (((2 : ℝ) • W' - W' * S' * W' - ((2 : ℝ) • W - W * S * W)) * (S' - S)).trace =
      (((2 : ℝ) • Matrix.diagonal r - Matrix.diagonal r * T * Matrix.diagonal r -
        Matrix.diagonal fun i => 2 - d i) * (T - Matrix.diagonal d)).trace := by
    rw [e3, ← hD, hTd, ← Matrix.sub_mul, ← Matrix.mul_sub, Matrix.mul_assoc, Matrix.mul_assoc, Matrix.trace_mul_comm,
      Matrix.mul_assoc, Matrix.mul_assoc]
  rw [e1, e2, e5]
  exact key

omit [DecidableEq ι] in
/-- The residual of a matrix inequality. -/
theorem trace_res {A : Nat → Matrix ι ι ℝ} {C W : Matrix ι ι ℝ} {m : Nat} {s : Schur.Sys ℝ} {δ : ℝ}
    (hG : ∀ i < m, ∀ j ≤ i, δ * s.G i j = (A i * (W * A j * W)).trace)
    (hAW : ∀ i < m, δ * s.AW i = (A i * W).trace)
    (hAQc : ∀ i < m, δ * s.AQc i = (A i * (W * C * W)).trace) {kc : ℝ} {y : Nat → ℝ} {S : Matrix ι ι ℝ}
    (hS : S = kc • C - ∑ j ∈ range m, y j • A j) :
    ∀ j < m, δ * res s m kc y j = (A j * ((2 : ℝ) • W - W * S * W)).trace := by
  intro j hj
  unfold res
  rw [Matrix.mul_sub, Matrix.trace_sub, Matrix.mul_smul, Matrix.trace_smul, smul_eq_mul,
    trace_swap, hS, trace_slack, trace_swap, mul_add, mul_sub]
  have e1 : δ * (2 * s.AW j) = 2 * (A j * W).trace := by
    rw [← hAW j hj]
    ring
  have e2 : δ * (kc * s.AQc j) = kc * (A j * (W * C * W)).trace := by
    rw [← hAQc j hj]
    ring
  have : δ * ∑ i ∈ range m, s.G (max j i) (min j i) * y i =
      ∑ i ∈ range m, y i * (A i * (W * A j * W)).trace := by
    rw [mul_sum]
    refine sum_congr rfl fun i hi => ?_
    have hi := mem_range.1 hi
    rw [← mul_assoc, mul_comm]
    congr 1
    rcases le_total i j with h | h
    · rw [max_eq_left h, min_eq_right h, hG j hj i h, trace_swap]
    · rw [max_eq_right h, min_eq_left h, hG i hi j h]
  rw [e1, e2, this]
  ring

omit [DecidableEq ι] in
/-- The inner product of the differences of two dual points and two slacks. -/
theorem trace_cross {A : Nat → Matrix ι ι ℝ} {C X X' S S' : Matrix ι ι ℝ} {m : Nat} {δ kc : ℝ} {y y' ρ ρ' : Nat → ℝ}
    (hS : S = kc • C - ∑ j ∈ range m, y j • A j) (hS' : S' = kc • C - ∑ j ∈ range m, y' j • A j)
    (hρ : ∀ j < m, δ * ρ j = (A j * X).trace) (hρ' : ∀ j < m, δ * ρ' j = (A j * X').trace) :
    ((X' - X) * (S' - S)).trace = -(δ * ∑ j ∈ range m, (y' j - y j) * (ρ' j - ρ j)) := by
  have e : S' - S = -∑ j ∈ range m, (y' j - y j) • A j := by
    rw [hS, hS']
    simp only [sub_smul, sum_sub_distrib]
    abel
  rw [Matrix.trace_mul_comm, e, Matrix.neg_mul, Matrix.trace_neg, Matrix.sum_mul, Matrix.trace_sum, mul_sum]
  congr 1
  refine sum_congr rfl fun j hj => ?_
  have hj := mem_range.1 hj
  rw [Matrix.smul_mul, Matrix.trace_smul, Matrix.mul_sub, Matrix.trace_sub, ← hρ j hj, ← hρ' j hj, smul_eq_mul]
  ring

end Trace

end Verif.Gap
