import Verif.Lemmas.LinearConstraint
import Verif.Props.ConstraintManager
import Mathlib.Analysis.SpecialFunctions.Exp
import Mathlib.Algebra.Order.Ring.Rat
import Mathlib.Tactic.NormNum

/-!
# Properties of the linear inequality (C35, C53, C54)
-/

namespace Verif.Linear

open Finset Schur Spec

variable {R : Type} [Field R] [LinearOrder R] [IsStrictOrderedRing R]

/-! ### Steps -/

/-- A step scales each entry of the scaling point by the exponential of the step size times the
direction; the norms reported are the largest absolute value and the sum of squares of the
direction. -/
theorem C35_step (exp : R → R) (o : Con R) (hn : 0 < o.n) {opt : StepOpt R} (ho : opt.affine = false)
    {ny : Nat} (hy : o.m ≤ ny) (y : Nat → R) (w : Ws R) :
    ∃ w' a b, prepareStep exp o opt ny y w = .ok (w', some (a, b)) ∧
      IsMax (fun i => |dir o w.W opt.cWeight opt.eWeight y i|) o.n a ∧
      b = ∑ i ∈ range o.n, dir o w.W opt.cWeight opt.eWeight y i ^ 2 ∧
      w'.W = w.W ∧
      ∀ i, (takeStep exp opt w').W i =
        w.W i * exp (opt.stepSize * dir o w.W opt.cWeight opt.eWeight y i) := by
  have e : ∀ i, -slack o opt.cWeight y i * w.W i + opt.eWeight =
      dir o w.W opt.cWeight opt.eWeight y i := by
    intro i
    unfold dir
    ring
  unfold prepareStep
  simp only [ho, Bool.false_eq_true, if_false, negativeSlack_eq o _ y hy, Outcome.bind_ok,
    if_neg hn.ne', e]
  refine ⟨_, _, _, rfl, ?_, ?_, rfl, fun i => ?_⟩
  · have := maxCoeff_spec (fun i => |dir o w.W opt.cWeight opt.eWeight y i|) (o.n - 1)
    rwa [show o.n - 1 + 1 = o.n by omega] at this
  · exact sum_congr rfl fun i _ => (sq _).symm
  · simp only [takeStep, ho, Bool.false_eq_true, if_false]
    split_ifs with h
    · rw [h, one_mul]
    · rw [mul_comm opt.stepSize]

/-- The scaling point stays positive under any sequence of non-affine steps. -/
theorem C35_positive {exp : R → R} (hexp : ∀ x, 0 < exp x) (o : Con R) (hn : 0 < o.n)
    (l : List (StepOpt R × (Nat → R))) (hl : ∀ s ∈ l, s.1.affine = false) (w : Ws R)
    (hw : ∀ i < o.n, 0 < w.W i) :
    ∃ w', run exp o l w = .ok w' ∧ ∀ i < o.n, 0 < w'.W i := by
  induction l generalizing w with
  | nil => exact ⟨w, rfl, hw⟩
  | cons a l ih =>
    obtain ⟨opt, y⟩ := a
    obtain ⟨w', a, b, h1, -, -, -, h4⟩ :=
      C35_step exp o hn (hl _ List.mem_cons_self) (le_refl o.m) y w
    obtain ⟨w'', h5, h6⟩ := ih (fun s hs => hl s (List.mem_cons_of_mem _ hs)) (takeStep exp opt w')
      (fun i hi => by rw [h4]; exact mul_pos (hw i hi) (hexp _))
    exact ⟨w'', by simp only [run, h1, Outcome.bind_ok, h5], h6⟩

/-- The hypotheses for the real exponential, from the identity. -/
example : (∀ x, 0 < Real.exp x) ∧
    ∀ i < 2, 0 < (setIdentity (⟨fun _ => 0, fun _ => 0, fun _ => 0⟩ : Ws ℝ)).W i := by
  exact ⟨Real.exp_pos, fun i _ => by simp [setIdentity]⟩

/-- The affine step, which prepares the dual variables, replaces `w` by `w + w ∘ (A y) ∘ w`. -/
theorem C35_affine (exp : R → R) (o : Con R) {opt : StepOpt R} (ho : opt.affine = true) {ny : Nat}
    (hy : o.m ≤ ny) (y : Nat → R) (w : Ws R) :
    ∃ w', prepareStep exp o opt ny y w = .ok (w', none) ∧
      ∀ i, w'.W i = w.W i + w.W i ^ 2 * ∑ j ∈ range o.m, o.A i j * y j := by
  unfold prepareStep
  simp only [ho, if_true, negativeSlack_eq o _ y hy, Outcome.bind_ok]
  refine ⟨_, rfl, fun i => ?_⟩
  simp only [takeStep, ho, if_true, affineUpdate, slack]
  ring

/-! ### Slack data -/

/-- The eigenvalue summary is that of the list of weighted slacks. -/
theorem C35_slack (o : Con R) (hn : 0 < o.n) (w : Ws R) {ny : Nat} (hy : o.m ≤ ny) (y : Nat → R)
    (k : R) (p : Divergence.Slack R) :
    ∃ q, slackData o w ny y k p = .ok q ∧ q.rank = p.rank ∧
      Divergence.Spec.DataOf ((List.range o.n).map fun i => w.W i * slack o k y i)
        { q with rank := o.n } := by
  unfold slackData
  rw [negativeSlack_eq o _ y hy]
  simp only [Outcome.bind_ok, if_neg hn.ne']
  have e : o.n - 1 + 1 = o.n := by omega
  obtain ⟨⟨i, hi, h1⟩, h2⟩ := maxCoeff_spec (fun i => w.W i * -slack o k y i) (o.n - 1)
  obtain ⟨⟨j, hj, h3⟩, h4⟩ := minCoeff_spec (fun i => w.W i * -slack o k y i) (o.n - 1)
  rw [e] at hi h2 hj h4
  refine ⟨_, rfl, rfl, ?_, ?_, ?_, ?_, ?_, ?_, ?_⟩
  · simp only
    rw [List.map_map, sum_list_range]
    refine sum_congr rfl fun i _ => ?_
    simp only [Function.comp_apply]
    ring
  · simp only
    rw [sum_list_range, ← sum_neg_distrib]
    refine sum_congr rfl fun i _ => ?_
    ring
  · simp
  · simp only [List.mem_map, List.mem_range]
    exact ⟨i, hi, by rw [h1]; ring⟩
  · simp only [List.mem_map, List.mem_range]
    rintro _ ⟨a, ha, rfl⟩
    have := h2 a ha
    linarith
  · simp only [List.mem_map, List.mem_range]
    exact ⟨j, hj, by rw [h3]; ring⟩
  · simp only [List.mem_map, List.mem_range]
    rintro _ ⟨a, ha, rfl⟩
    have := h4 a ha
    linarith

/-! ### Schur complement -/

/-- The matrix and right-hand sides written into the leading entries: `A' W² A`, `A' W`, `A' W² c`.
The rest is kept if the system has the size of the constraint, and zero otherwise. -/
theorem C35_schur_init (o : Con R) (W : Nat → R) (s : Sys R) (hs : o.m ≤ s.rows) :
    ∃ t, schur o W true s = .ok t ∧ t.rows = s.rows ∧
      (∀ i < s.rows, ∀ j < s.rows, t.G i j =
        if i < o.m ∧ j < o.m then ∑ r ∈ range o.n, o.A r i * W r ^ 2 * o.A r j else 0) ∧
      (∀ i < s.rows, t.AW i = if i < o.m then ∑ r ∈ range o.n, o.A r i * W r else 0) ∧
      (∀ i < s.rows, t.AQc i =
        if i < o.m then ∑ r ∈ range o.n, o.A r i * W r ^ 2 * o.c r else 0) := by
  unfold schur
  simp only [if_neg (not_lt.2 hs), if_true]
  refine ⟨_, rfl, ?_, fun i hi j hj => ?_, fun i hi => ?_, fun i hi => ?_⟩
  · split_ifs <;> rfl
  · simp only [setTopLeft]
    split_ifs with h1 h2
    · exact sum_congr rfl fun r _ => by ring
    · rfl
    · exact absurd ⟨by omega, by omega⟩ h1
  · simp only [setTop]
    split_ifs with h1 h2
    · rfl
    · rfl
    · omega
  · simp only [setTop]
    split_ifs with h1 h2
    · exact sum_congr rfl fun r _ => by ring
    · rfl
    · omega

/-- The two inner products, if the system has the size of the constraint. -/
theorem C53_inner_products_partial (o : Con R) (W : Nat → R) (s : Sys R) (hs : s.rows = o.m) :
    ∃ t, schur o W true s = .ok t ∧ t.wc = ∑ r ∈ range o.n, W r * o.c r ∧
      t.cQc = ∑ r ∈ range o.n, o.c r * W r ^ 2 * o.c r := by
  unfold schur
  simp only [hs, lt_irrefl, if_false, if_true, ne_eq, not_true_eq_false]
  refine ⟨_, rfl, rfl, ?_⟩
  simp only
  exact sum_congr rfl fun r _ => by ring

/-- In a system with more rows (a constraint on the first variables of a longer list) both inner
products are set to zero after they were computed. -/
theorem C53_inner_products_violated (o : Con R) (W : Nat → R) (s : Sys R) (hs : o.m < s.rows) :
    ∃ t, schur o W true s = .ok t ∧ t.wc = 0 ∧ t.cQc = 0 := by
  unfold schur
  simp only [if_neg (not_lt.2 hs.le), if_true, hs.ne', ne_eq, not_false_eq_true]
  exact ⟨_, rfl, rfl, rfl⟩

/-- When accumulating, exactly the contribution is added. -/
theorem C35_schur_accumulate (o : Con R) (W : Nat → R) (s : Sys R) (hs : o.m ≤ s.rows) :
    ∃ t, schur o W false s = .ok t ∧ t.rows = s.rows ∧
      (∀ i j, t.G i j = s.G i j +
        if i < o.m ∧ j < o.m then ∑ r ∈ range o.n, o.A r i * W r ^ 2 * o.A r j else 0) ∧
      (∀ i, t.AW i = s.AW i + if i < o.m then ∑ r ∈ range o.n, o.A r i * W r else 0) ∧
      (∀ i, t.AQc i = s.AQc i +
        if i < o.m then ∑ r ∈ range o.n, o.A r i * W r ^ 2 * o.c r else 0) ∧
      t.wc = s.wc + ∑ r ∈ range o.n, W r * o.c r ∧
      t.cQc = s.cQc + ∑ r ∈ range o.n, o.c r * W r ^ 2 * o.c r := by
  unfold schur
  simp only [if_neg (not_lt.2 hs), Bool.false_eq_true, if_false]
  refine ⟨_, rfl, rfl, fun i j => ?_, fun i => ?_, fun i => ?_, rfl, ?_⟩
  · simp only [setTopLeft]
    split_ifs with h1
    · congr 1
      exact sum_congr rfl fun r _ => by ring
    · rw [add_zero]
  · simp only [setTop]
    split_ifs with h1
    · rfl
    · rw [add_zero]
  · simp only [setTop]
    split_ifs with h1
    · congr 1
      exact sum_congr rfl fun r _ => by ring
    · rw [add_zero]
  · simp only
    congr 1
    exact sum_congr rfl fun r _ => by ring

/-- A constraint with more columns than the variables it is added for is accepted, and its system,
whose size is the number of these variables, is then accessed out of range. -/
theorem C54_too_many_columns_violated (W : Nat → R) (b : Bool) (o : Con R) (N : Nat)
    (hN : N < o.m) :
    ∃ s' : CM.Manager (Con R), ((CM.Manager.empty.setNumberOfVariables N).addConstraint o) =
        .ok (true, s') ∧ s'.cliques = [List.range N] ∧
      ∀ S : Sys R, S.rows = (List.range N).length → schur o W b S = .ub := by
  obtain ⟨s', h1, h2⟩ :=
    (CM.C01_allVariables (CM.Manager.empty.setNumberOfVariables N) o 0).1
  refine ⟨s', h1, h2, fun S hS => ?_⟩
  unfold schur
  rw [if_pos (by rw [hS, List.length_range]; exact hN)]

/-- A row in two unknowns added to a program with one variable. -/
example : ∃ s' : CM.Manager (Con ℚ), ((CM.Manager.empty.setNumberOfVariables 1).addConstraint
      ⟨1, 2, fun _ _ => 2, fun _ => 3⟩) = .ok (true, s') ∧
    schur (⟨1, 2, fun _ _ => 2, fun _ => 3⟩ : Con ℚ) (fun _ => 1) true
      ⟨1, fun _ _ => 0, fun _ => 0, fun _ => 0, 0, 0⟩ = .ub := ⟨_, rfl, rfl⟩

/-- A constraint with at most as many columns as variables is handled. -/
theorem C54_enough_variables_partial (o : Con R) (W : Nat → R) (b : Bool) (s : Sys R)
    (hs : o.m ≤ s.rows) : ∃ t, schur o W b s = .ok t := by
  cases b
  · obtain ⟨t, h, -⟩ := C35_schur_accumulate o W s hs
    exact ⟨t, h⟩
  · obtain ⟨t, h, -⟩ := C35_schur_init o W s hs
    exact ⟨t, h⟩

/-- A system of one unknown, with the row `2 x ≤ 3` and scaling point 1/2. -/
example : (schur (⟨1, 1, fun _ _ => 2, fun _ => 3⟩ : Con ℚ) (fun _ => 1 / 2) true
      ⟨1, fun _ _ => 7, fun _ => 7, fun _ => 7, 7, 7⟩).toOption.map
      (fun t => (t.G 0 0, t.AW 0, t.AQc 0, t.wc, t.cQc)) = some (1, 1, 3 / 2, 3 / 2, 9 / 4) ∧
    (schur (⟨1, 1, fun _ _ => 2, fun _ => 3⟩ : Con ℚ) (fun _ => 1 / 2) true
      ⟨2, fun _ _ => 7, fun _ => 7, fun _ => 7, 7, 7⟩).toOption.map
      (fun t => (t.G 0 0, t.AW 0, t.AQc 0, t.wc, t.cQc)) = some (1, 1, 3 / 2, 0, 0) := by
  decide +kernel

/-! ### Bounds -/

/-- The slack of a bound constraint is the distance to the bound. -/
theorem C35_bounds (n : Nat) (b y : Nat → R) (i : Nat) (hi : i < n) :
    slack (lowerBound n b) 1 y i = y i - b i ∧ slack (upperBound n b) 1 y i = b i - y i := by
  unfold slack lowerBound upperBound
  simp only [ite_mul, neg_mul, one_mul, zero_mul]
  rw [sum_ite_eq, sum_ite_eq, if_pos (mem_range.2 hi), if_pos (mem_range.2 hi)]
  constructor
  · ring
  · rfl

end Verif.Linear
