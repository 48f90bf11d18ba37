import Verif.Lemmas.KktError
import Verif.Props.Gap

/-!
# C72: the objective values differ by the reported duality gap

In exact arithmetic, if `y` solves the linear system of an iteration, then `cx - by` is `s_dot_x`, and the
`kkt_error` that ends the updates of the barrier parameter is zero.
-/

namespace Verif.KktError

open Finset Dual Gap LineSearch

/-! ### Examples -/

/-- `y₀ ≤ 1` with scaling point 1, and the equation `y₀ = 1/2` with multiplier `y₁`. -/
noncomputable def exEs : List (Entry ℝ) :=
  [⟨[0], .linear ⟨1, 1, fun _ _ => 1, fun _ => 1⟩ ⟨fun _ => 1, fun _ => 0, fun _ => 0⟩⟩,
   ⟨[0, 1], .equality ⟨1, 1, 1, fun _ _ => 1, fun _ => 1 / 2, fun _ => 0⟩⟩]

/-- The contributions of the constraints. -/
noncomputable def sysAt (es : List (Entry ℝ)) (i : Nat) : Schur.Sys ℝ :=
  sysOf (((es[i]?).map Entry.item).elim .ub fun x =>
    x.schur exEnv.sqrt (sysr ((es.map fun e => e.vars.length).getD i 0)))

/-- The solution of the system. -/
noncomputable def exY (u : Nat) : ℝ := if u = 0 then 1 / 2 else 3 / 2

theorem ex_contributions : Spec.Contributions exEnv.sqrt exEs (sysAt exEs) := by
  refine forall_get fun i hi => ?_
  have : i = 0 ∨ i = 1 := by simp [exEs] at hi; omega
  rcases this with rfl | rfl
  · exact ⟨sysr 1, rfl, rfl⟩
  · exact ⟨sysr 2, rfl, rfl⟩

theorem ex_solves : Spec.Solves 2 exB 1 1 1 exEs (sysAt exEs) exY := by
  intro u hu
  have : u = 0 ∨ u = 1 := by omega
  rcases this with rfl | rfl <;>
  simp [Sup.Spec.total, Sup.Spec.entry, Sup.Spec.ventry, exEs, List.range_succ, sum_range_succ, Item.schur,
    Linear.schur, Equality.schur, sysAt, sysOf, sysr, Schur.setTop, Schur.setTopLeft, Schur.Sys.setZero,
    Equality.setTopRight, Equality.setBottomLeft, Equality.setBottom, exB, exY, List.idxOf_cons]
  norm_num

theorem ex_step : ∃ es', Dual.prepareStep exEnv (1 * 1) 2 exY exEs = .ok (es', 1 / 2, 1 / 4) := by
  simp [Dual.prepareStep, Dual.prepareLoop, exEs, gather, Item.prepareStep, Linear.prepareStep,
    Linear.negativeSlack, Linear.maxCoeff, Equality.prepareStep, updateNorm, exY]
  norm_num [abs_of_pos]

theorem ex_good : ∀ e ∈ exEs, Gap.Spec.Good e 2 := by
  intro e he
  simp only [exEs, List.mem_cons, List.not_mem_nil, or_false] at he
  rcases he with rfl | rfl
  · exact ⟨by decide, by decide, rfl, fun _ _ => one_pos⟩
  · exact ⟨by decide, by decide, rfl, rfl⟩

theorem ex_regular : ∀ e ∈ exEs, Spec.Regular e 2 := by
  intro e he
  have h := ex_good e he
  simp only [exEs, List.mem_cons, List.not_mem_nil, or_false] at he
  rcases he with rfl | rfl <;> exact h

theorem ex_separate : Gap.Spec.Separate exEs exB := by
  intro i e o he ho r hr
  match i, he with
  | 0, he => simp only [exEs, List.getElem?_cons_zero, Option.some.injEq] at he; subst he; cases ho
  | 1, he =>
    simp only [exEs, List.getElem?_cons_succ, List.getElem?_cons_zero, Option.some.injEq] at he
    subst he
    cases ho
    obtain rfl : r = 0 := by simpa using hr
    refine ⟨by simp [exB], fun j e' hj hne => ?_⟩
    match j, hj with
    | 0, hj => simp only [exEs, List.getElem?_cons_zero, Option.some.injEq] at hj; subst hj; decide
    | 1, hj => exact absurd rfl hne

theorem ex_resid : ∃ r, Sup.assembleResiduals 2 (exEs.map Entry.vars) (fun i => resid (sysAt exEs i)) = .ok r :=
  (Sup.C19_residuals 2 (exEs.map Entry.vars) (fun i => resid (sysAt exEs i)) (by decide) (by decide)).imp
    fun _ h => h.1

/-! ### The values -/

/-- The two objective values differ by `(rank - normsqrd) / (k² bs cs)`, for all kinds of constraints
without quadratic costs, whatever the norm of the direction.  Partial: a linear inequality must have as many
columns as variables, see `C72_columns_violated`. -/
theorem C72_identity_partial (v : Env ℝ) (hv : ∀ x, 0 ≤ x → SolveLoop.Spec.SqrtAt v.sqrt x) (N : Nat)
    (y b : Nat → ℝ) (k bs cs : ℝ) (hk : 0 < k) (hbs : 0 < bs) (hcs : 0 < cs) (es : List (Entry ℝ))
    (hg : ∀ e ∈ es, Spec.Regular e N) (hsep : Gap.Spec.Separate es b) (s : Nat → Schur.Sys ℝ)
    (hs : Spec.Contributions v.sqrt es s) (hy : Spec.Solves N b k bs cs es s y) (r : Sup.Resid ℝ)
    (hr : Sup.assembleResiduals N (es.map Entry.vars) (fun i => resid (s i)) = .ok r)
    (es' : List (Entry ℝ)) (A B : ℝ) (hp : Dual.prepareStep v (k * cs) N y es = .ok (es', A, B)) :
    cxValue N r y k bs cs - byValue N b y k cs = (rank es - B) / (k ^ 2 * bs * cs) :=
  (program_id hv hk hbs hcs hg hsep hs hy hr hp).1

example : ∃ r, Sup.assembleResiduals 2 (exEs.map Entry.vars) (fun i => resid (sysAt exEs i)) = .ok r ∧
    cxValue 2 r exY 1 1 1 - byValue 2 exB exY 1 1 = 3 / 4 := by
  obtain ⟨r, hr⟩ := ex_resid
  obtain ⟨es', hp⟩ := ex_step
  refine ⟨r, hr, ?_⟩
  rw [C72_identity_partial exEnv exEnv_sqrt 2 exY exB 1 1 1 one_pos one_pos one_pos exEs ex_regular ex_separate _
    ex_contributions ex_solves r hr es' _ _ hp]
  norm_num [rank, exEs, Item.rank]

/-- The error is zero, or not a number when `s_dot_x` is zero. -/
theorem C72_kkt_error_partial (v : Env ℝ) (hv : ∀ x, 0 ≤ x → SolveLoop.Spec.SqrtAt v.sqrt x) (N : Nat)
    (y b : Nat → ℝ) (k bs cs : ℝ) (hk : 0 < k) (hbs : 0 < bs) (hcs : 0 < cs) (es : List (Entry ℝ))
    (hg : ∀ e ∈ es, Spec.Regular e N) (hsep : Gap.Spec.Separate es b) (s : Nat → Schur.Sys ℝ)
    (hs : Spec.Contributions v.sqrt es s) (hy : Spec.Solves N b k bs cs es s y) (r : Sup.Resid ℝ)
    (hr : Sup.assembleResiduals N (es.map Entry.vars) (fun i => resid (s i)) = .ok r)
    (es' : List (Entry ℝ)) (A B : ℝ) (hp : Dual.prepareStep v (k * cs) N y es = .ok (es', A, B))
    (hB : 0 ≤ B) :
    sDotX v.sqrt (rank es) B k bs cs = (rank es - B) / (k ^ 2 * bs * cs) ∧
    kktError (cxValue N r y k bs cs) (byValue N b y k cs) (sDotX v.sqrt (rank es) B k bs cs) =
      if (rank es : ℝ) = B then .nan else .fin 0 := by
  have h1 := C72_identity_partial v hv N y b k bs cs hk hbs hcs es hg hsep s hs hy r hr es' A B hp
  have h2 : sDotX v.sqrt (rank es) B k bs cs = (rank es - B) / (k ^ 2 * bs * cs) := by
    unfold sDotX
    simp only
    rw [abs_of_nonneg hB, (hv B hB).2]
    have := hk.ne'
    have := hbs.ne'
    have := hcs.ne'
    field_simp
  refine ⟨h2, ?_⟩
  have hpos : 0 < k ^ 2 * bs * cs := mul_pos (mul_pos (pow_pos hk 2) hbs) hcs
  unfold kktError ediv
  rw [h1, h2, sub_self, abs_zero, zero_div]
  by_cases h : (rank es : ℝ) = B
  · simp [h]
  · have h3 : ¬ ((rank es : ℝ) - B) / (k ^ 2 * bs * cs) = 0 := by
      rw [div_eq_zero_iff, sub_eq_zero]
      exact fun h' => h'.elim h hpos.ne'
    rw [if_neg h3, if_neg h]

/-- The error never exceeds the tolerance, unless there are octonion matrices, for which the sum of squares
of the norms is not shown to be nonnegative. -/
theorem C72_tolerance_partial (v : Env ℝ) (hv : ∀ x, 0 ≤ x → SolveLoop.Spec.SqrtAt v.sqrt x) (N : Nat)
    (y b : Nat → ℝ) (k bs cs : ℝ) (hk : 0 < k) (hbs : 0 < bs) (hcs : 0 < cs) (es : List (Entry ℝ))
    (hg : ∀ e ∈ es, Spec.Regular e N ∧ Gap.Spec.Good e N) (hsep : Gap.Spec.Separate es b)
    (s : Nat → Schur.Sys ℝ) (hs : Spec.Contributions v.sqrt es s) (hy : Spec.Solves N b k bs cs es s y)
    (r : Sup.Resid ℝ)
    (hr : Sup.assembleResiduals N (es.map Entry.vars) (fun i => resid (s i)) = .ok r)
    (es' : List (Entry ℝ)) (A B : ℝ) (hp : Dual.prepareStep v (k * cs) N y es = .ok (es', A, B))
    (tol : ℝ) (htol : 0 ≤ tol) :
    Ext.lt (.fin tol) (kktError (cxValue N r y k bs cs) (byValue N b y k cs)
      (sDotX v.sqrt (rank es) B k bs cs)) = false := by
  have hB := (program_id hv hk hbs hcs (fun e he => (hg e he).1) hsep hs hy hr hp).2
    fun e he => (hg e he).2
  rw [(C72_kkt_error_partial v hv N y b k bs cs hk hbs hcs es (fun e he => (hg e he).1) hsep s hs hy r hr es' A B hp
    hB).2]
  split_ifs
  · rfl
  · simpa [Ext.lt] using htol

example : ∃ r, Sup.assembleResiduals 2 (exEs.map Entry.vars) (fun i => resid (sysAt exEs i)) = .ok r ∧
    Ext.lt (.fin (10 ^ 10)) (kktError (cxValue 2 r exY 1 1 1) (byValue 2 exB exY 1 1)
      (sDotX exEnv.sqrt (rank exEs) (1 / 4) 1 1 1)) = false := by
  obtain ⟨r, hr⟩ := ex_resid
  obtain ⟨es', hp⟩ := ex_step
  exact ⟨r, hr, C72_tolerance_partial exEnv exEnv_sqrt 2 exY exB 1 1 1 one_pos one_pos one_pos exEs
    (fun e he => ⟨ex_regular e he, ex_good e he⟩) ex_separate _ ex_contributions ex_solves r hr es' _ _ hp
    _ (by norm_num)⟩

/-! ### Fewer columns than variables -/

/-- `y₀ ≤ c`, as a constraint on `y₀` and `y₁` with one column, and `y₁ ≤ 1`, both with scaling point 1. -/
noncomputable def badEs (c : ℝ) : List (Entry ℝ) :=
  [⟨[0, 1], .linear ⟨1, 1, fun _ _ => 1, fun _ => c⟩ ⟨fun _ => 1, fun _ => 0, fun _ => 0⟩⟩,
   ⟨[1], .linear ⟨1, 1, fun _ _ => 1, fun _ => 1⟩ ⟨fun _ => 1, fun _ => 0, fun _ => 0⟩⟩]

/-- The solution of the system with the cost `y₀ + y₁`. -/
noncomputable def badY (c : ℝ) (u : Nat) : ℝ := if u = 0 then c - 1 else 0

theorem bad_contributions (c : ℝ) : Spec.Contributions exEnv.sqrt (badEs c) (sysAt (badEs c)) := by
  refine forall_get fun i hi => ?_
  have : i = 0 ∨ i = 1 := by simp [badEs] at hi; omega
  rcases this with rfl | rfl
  · exact ⟨sysr 2, rfl, rfl⟩
  · exact ⟨sysr 1, rfl, rfl⟩

theorem bad_solves (c : ℝ) : Spec.Solves 2 (fun _ => 1) 1 1 1 (badEs c) (sysAt (badEs c)) (badY c) := by
  intro u hu
  have : u = 0 ∨ u = 1 := by omega
  rcases this with rfl | rfl <;>
  simp [Sup.Spec.total, Sup.Spec.entry, Sup.Spec.ventry, badEs, List.range_succ, sum_range_succ, Item.schur,
    Linear.schur, sysAt, sysOf, sysr, Schur.setTop, Schur.setTopLeft, Schur.Sys.setZero, badY,
    List.idxOf_cons] <;>
  norm_num
  ring

theorem bad_step (c : ℝ) :
    ∃ es', Dual.prepareStep exEnv (1 * 1) 2 (badY c) (badEs c) = .ok (es', 0, 0) := by
  simp [Dual.prepareStep, Dual.prepareLoop, badEs, gather, Item.prepareStep, Linear.prepareStep,
    Linear.negativeSlack, Linear.maxCoeff, updateNorm, badY]

/-- A linear inequality with fewer columns than variables loses its inner products (F30): the error exceeds
any tolerance although the system is solved exactly and the point is on the central path. -/
theorem C72_columns_violated (T : ℝ) : ∃ (c : ℝ) (r : Sup.Resid ℝ) (es' : List (Entry ℝ)),
    Spec.Contributions exEnv.sqrt (badEs c) (sysAt (badEs c)) ∧
    Spec.Solves 2 (fun _ => 1) 1 1 1 (badEs c) (sysAt (badEs c)) (badY c) ∧
    Dual.prepareStep exEnv (1 * 1) 2 (badY c) (badEs c) = .ok (es', 0, 0) ∧
    Sup.assembleResiduals 2 ((badEs c).map Entry.vars) (fun i => resid (sysAt (badEs c) i)) = .ok r ∧
    Ext.lt (.fin T) (kktError (cxValue 2 r (badY c) 1 1 1) (byValue 2 (fun _ => 1) (badY c) 1 1)
      (sDotX exEnv.sqrt (rank (badEs c)) 0 1 1 1)) = true := by
  obtain ⟨es', h⟩ := bad_step (2 * |T| + 4)
  obtain ⟨r, h1, h2, h3, -, h5⟩ := Sup.C19_residuals 2 ((badEs (2 * |T| + 4)).map Entry.vars)
    (fun i => resid (sysAt (badEs (2 * |T| + 4)) i)) (by simp [badEs]) (by simp [badEs])
  refine ⟨2 * |T| + 4, r, es', bad_contributions _, bad_solves _, h, h1, ?_⟩
  set c := 2 * |T| + 4 with hc
  have hT := abs_nonneg T
  have f2 : r.wc = 1 := by
    rw [h2]
    simp [badEs, List.range_succ, resid, sysAt, sysOf, sysr, Item.schur, Linear.schur,
      Schur.Sys.setZero]
  have f3 : r.cQc = 1 := by
    rw [h3]
    simp [badEs, List.range_succ, resid, sysAt, sysOf, sysr, Item.schur, Linear.schur,
      Schur.Sys.setZero]
  have f5 : r.AQc 0 = c ∧ r.AQc 1 = 1 := by
    rw [h5, h5]
    simp [badEs, List.range_succ, resid, sysAt, sysOf, sysr, Item.schur, Linear.schur, Sup.Spec.ventry,
      Schur.setTop, Schur.Sys.setZero, List.idxOf_cons]
  have hcx : cxValue 2 r (badY c) 1 1 1 = c ^ 2 - c + 1 := by
    simp only [cxValue, sum_range_succ, range_zero, sum_empty, f2, f3, f5.1, f5.2, badY]
    norm_num
    ring
  have hby : byValue 2 (fun _ => 1) (badY c) 1 1 = c - 1 := by
    simp [byValue, sum_range_succ, badY]
  have hsx : sDotX exEnv.sqrt (rank (badEs c)) 0 1 1 1 = 2 := by
    simp [sDotX, rank, badEs, Item.rank, exEnv]
  rw [hcx, hby, hsx]
  unfold kktError ediv
  rw [if_neg two_ne_zero]
  simp only [Ext.lt, decide_eq_true_eq]
  rw [lt_div_iff₀ two_pos]
  refine lt_of_lt_of_le ?_ (le_abs_self _)
  nlinarith [le_abs_self T]

/-- The default tolerance is exceeded. -/
example : ∃ (c : ℝ) (r : Sup.Resid ℝ),
    Sup.assembleResiduals 2 ((badEs c).map Entry.vars) (fun i => resid (sysAt (badEs c) i)) = .ok r ∧
    Ext.lt (.fin (10 ^ 10)) (kktError (cxValue 2 r (badY c) 1 1 1) (byValue 2 (fun _ => 1) (badY c) 1 1)
      (sDotX exEnv.sqrt (rank (badEs c)) 0 1 1 1)) = true := by
  obtain ⟨c, r, -, -, -, -, h1, h2⟩ := C72_columns_violated (10 ^ 10)
  exact ⟨c, r, h1, h2⟩

end Verif.KktError
