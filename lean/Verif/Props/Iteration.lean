import Verif.Lemmas.IterationTotal
import Verif.Props.CholeskyAccept
import Verif.Props.Infeasible

/-!
# C74: the iterations, from the program to the point returned

`iterate` composes the parts of an iteration: the systems of the constraints, assembly, factorization, solution,
`PrepareStep`, `TakeStep`.  Nothing is assumed about the results of these parts; only the functions of Eigen
(Cholesky factorization of dense matrices, solution with the denominator of the exponential) are contracts.
-/

namespace Verif.Iteration

open Finset Dual Gap.Spec Spec

/-! ### Iterations that happened -/

/-- The iterations `0, ..., j` of a solve.  If the norm of the last direction is at most one, then the point is
feasible, and its objective value is within `(rank - normsqrd) / (k² bs cs)` of the largest one.  Partial: no
block may be assembled with shifted labels (F2), every unknown must occur (F3), no pivot may be replaced (F22),
the norm must bound the directions of matrix inequalities (F42), and there are no octonions. -/
theorem C74_run_partial (v : Env ℝ) (hv : ∀ x, 0 ≤ x → SolveLoop.Spec.SqrtAt v.sqrt x)
    (he : ∀ x, 0 < v.exp x) (hs : ∀ n, MatrixExp.Spec.Solves (v.solve n)) (p : Setup ℝ) (hbs : 0 < p.bs)
    (hcs : 0 < p.cs) (duals : List (List Nat)) (k : Nat → ℝ) (j : Nat) (hk : 0 < k j) (x : Nat → State ℝ)
    (st : Nat → Step ℝ) (hb : Built p duals (x 0).es) (hz : Sized (x 0).es (x 0).sys)
    (hg : ∀ e ∈ (x 0).es, Gap.Spec.Good e p.N) (hsep : Separate (x 0).es p.b) (h : Chain v p k j x st)
    (hu : ∀ i ≤ j, Unregularized (st i))
    (hn : ∀ i ≤ j, ∀ e ∈ (x i).es, Bounded (k i * p.cs) (st i).norm (fun l => (st i).y (e.vars.getD l 0)) e.item)
    (h1 : (st j).norm ≤ 1) :
    Feasible (x 0).es (fun u => (st j).y u / (k j * p.cs)) ∧ ∀ z, Feasible (x 0).es z →
      objective p.N p.b (p.cs / p.bs) (x 0).es z ≤
        objective p.N p.b (p.cs / p.bs) (x 0).es (fun u => (st j).y u / (k j * p.cs)) +
          (rank (x 0).es - (st j).normsqrd) / (k j ^ 2 * p.bs * p.cs) := by
  obtain ⟨h2, es', B, h3, h4⟩ := Gap.C71_run_partial v hv he hs p.N p.b p.bs p.cs hbs hcs k
    (fun i => (st i).norm) j hk (fun i => (x i).es) (fun i => (st i).y)
    (chain_run hb (fun e he => (hg e he).1) hz h hu) hg hsep hn h1
  obtain ⟨-, -, -, -, es₁, -, -, -, -, -, -, -, h5, -⟩ := iterate_ok (h j le_rfl)
  rw [h5] at h3
  simp only [Outcome.ok.injEq, Prod.mk.injEq] at h3
  rw [h3.2.2]
  exact ⟨h2, h4⟩

/-- The objective values: `by` is that of a feasible point, and `cx` is an upper bound of all of them.  Partial as
above. -/
theorem C74_bounds_partial (v : Env ℝ) (hv : ∀ x, 0 ≤ x → SolveLoop.Spec.SqrtAt v.sqrt x)
    (he : ∀ x, 0 < v.exp x) (hs : ∀ n, MatrixExp.Spec.Solves (v.solve n)) (p : Setup ℝ) (hbs : 0 < p.bs)
    (hcs : 0 < p.cs) (duals : List (List Nat)) (k : Nat → ℝ) (j : Nat) (hk : 0 < k j) (x : Nat → State ℝ)
    (st : Nat → Step ℝ) (hb : Built p duals (x 0).es) (hz : Sized (x 0).es (x 0).sys)
    (hg : ∀ e ∈ (x 0).es, Gap.Spec.Good e p.N) (hc : Infeasible.Spec.NoCost (x 0).es)
    (hsep : Separate (x 0).es p.b) (h : Chain v p k j x st) (hu : ∀ i ≤ j, Unregularized (st i))
    (hn : ∀ i ≤ j, ∀ e ∈ (x i).es, Bounded (k i * p.cs) (st i).norm (fun l => (st i).y (e.vars.getD l 0)) e.item)
    (h1 : (st j).norm ≤ 1) :
    (∃ z, Feasible (x 0).es z ∧ ∑ u ∈ range p.N, p.b u * z u = (st j).bY) ∧
    ∀ z, Feasible (x 0).es z → ∑ u ∈ range p.N, p.b u * z u ≤ (st j).cx := by
  have hr := chain_run hb (fun e he => (hg e he).1) hz h hu
  obtain ⟨h2, h3⟩ := Gap.run_good hv he hs hr hg (fun i hi => hn i hi.le) j le_rfl
  obtain ⟨-, -, -, -, es₁, -, -, -, -, -, -, -, h5, -⟩ := iterate_ok (h j le_rfl)
  obtain ⟨⟨z, h6, h7⟩, h8⟩ := Infeasible.C73_bounds_partial v hv p.N (st j).y p.b (k j) p.bs p.cs hk hbs hcs (x j).es h2
    (Infeasible.run_noCost hr hc j le_rfl) (h3.separate hsep) (st j).cx (st j).bY
    (chain_values hb (fun e he => (hg e he).1) hz h hu j le_rfl) es₁ _ _ h5 h1 (hn j le_rfl)
  exact ⟨⟨z, (h3.feasible z).1 h6, h7⟩, fun z hz => h8 z ((h3.feasible z).2 hz)⟩

/-! ### Iterations are defined -/

/-- Without equations, with complete data, scaling points in the interior of their cones, and unknowns that are
determined by the constraints and the quadratic costs, an iteration is defined whatever the barrier parameter
is: no access out of range, no failure of the factorization, and the linear system is solved. -/
theorem C74_defined (v : Env ℝ) (hv : ∀ x, 0 ≤ x → SolveLoop.Spec.SqrtAt v.sqrt x) (he : ∀ x, 0 < v.exp x)
    (p : Setup ℝ) (duals : List (List Nat)) (x : State ℝ) (hr : Ready p duals x) (k : ℝ) :
    ∃ st x', iterate v p k x = .ok (some (st, x')) ∧ System v.sqrt p.N p.b k p.bs p.cs x.es st.y := by
  obtain ⟨st, x', h1, h2⟩ := iterate_total hv he hr k
  obtain ⟨⟨s, r, h3, h4, -⟩, -⟩ := iterate_values hr.built (fun e he => (hr.good e he).1) hr.sized h1 h2
  exact ⟨st, x', h1, Infeasible.system_of h3 h4⟩

/-- Without dense matrix inequalities all iterations are defined, for any sequence of barrier parameters. -/
theorem C74_forever (v : Env ℝ) (hv : ∀ x, 0 ≤ x → SolveLoop.Spec.SqrtAt v.sqrt x) (he : ∀ x, 0 < v.exp x)
    (hs : ∀ n, MatrixExp.Spec.Solves (v.solve n)) (p : Setup ℝ) (duals : List (List Nat)) (x₀ : State ℝ)
    (hr : Ready p duals x₀) (hd : ∀ e ∈ x₀.es, ¬ DenseMatrix e.item) (k : Nat → ℝ) :
    ∃ (x : Nat → State ℝ) (st : Nat → Step ℝ), x 0 = x₀ ∧ ∀ j, Chain v p k j x st := by
  obtain ⟨x, st, h1, h2⟩ := run_exists hv he hs hr hd k
  exact ⟨x, st, h1, fun j i _ => (h2 i).1⟩

/-- Linear inequalities, second-order and quadratic cones with convex quadratic costs: all iterations are
defined, and every one with a norm of at most one yields a feasible point that is optimal up to the gap.  All
hypotheses are about the program and its start. -/
theorem C74_vector (v : Env ℝ) (hv : ∀ x, 0 ≤ x → SolveLoop.Spec.SqrtAt v.sqrt x) (he : ∀ x, 0 < v.exp x)
    (hs : ∀ n, MatrixExp.Spec.Solves (v.solve n)) (p : Setup ℝ) (hbs : 0 < p.bs) (hcs : 0 < p.cs)
    (duals : List (List Nat)) (x₀ : State ℝ) (hr : Ready p duals x₀) (hm : ∀ e ∈ x₀.es, ¬ MatrixCone e.item)
    (k : Nat → ℝ) (hk : ∀ i, 0 < k i) :
    ∃ (x : Nat → State ℝ) (st : Nat → Step ℝ), x 0 = x₀ ∧
      ∀ j, iterate v p (k j) (x j) = .ok (some (st j, x (j + 1))) ∧
        ((st j).norm ≤ 1 → Feasible x₀.es (fun u => (st j).y u / (k j * p.cs)) ∧ ∀ z, Feasible x₀.es z →
          objective p.N p.b (p.cs / p.bs) x₀.es z ≤
            objective p.N p.b (p.cs / p.bs) x₀.es (fun u => (st j).y u / (k j * p.cs)) +
              (rank x₀.es - (st j).normsqrd) / (k j ^ 2 * p.bs * p.cs)) := by
  have hd : ∀ (es : List (Entry ℝ)), (∀ e ∈ es, ¬ MatrixCone e.item) → ∀ e ∈ es, ¬ DenseMatrix e.item := by
    intro es h e he hd
    refine h e he ?_
    cases hx : e.item <;> rw [hx] at hd <;> first | trivial | exact hd.elim
  obtain ⟨x, st, rfl, h2⟩ := run_exists hv he hs hr (hd _ hm) k
  refine ⟨x, st, rfl, fun j => ⟨(h2 j).1, fun hj => ?_⟩⟩
  have key : ∀ i, Ready p duals (x i) ∧ ∀ e ∈ (x i).es, ¬ MatrixCone e.item := by
    intro i
    induction i with
    | zero => exact ⟨hr, hm⟩
    | succ i ih =>
      obtain ⟨h3, -, h4⟩ := ready_next hv he hs ih.1 (h2 i).1 (h2 i).2 fun e he h => absurd h (hd _ ih.2 e he)
      exact ⟨h3, h4 ih.2⟩
  refine C74_run_partial v hv he hs p hbs hcs duals k j (hk j) x st hr.built hr.sized hr.good ?_
    (fun i _ => (h2 i).1) (fun i _ => (h2 i).2) (fun i _ e he => ?_) hj
  · intro i e o h3 h4
    have := hr.usable e (List.mem_of_getElem? h3)
    rw [h4] at this
    exact this.elim
  · have hc := (key i).2 e he
    cases hx : e.item <;> rw [hx] at hc <;> first | trivial | exact (hc trivial).elim

/-! ### An example -/

/-- Maximise `y₀ + y₁ - y₁² / 2` subject to `y₀ ≤ 1`, `y₁ ≤ 1` and `‖y‖ ≤ 2`. -/
noncomputable def exEs : List (Entry ℝ) :=
  [⟨[0, 1], .linear ⟨2, 2, fun i j => if i = j then 1 else 0, fun _ => 1⟩ ⟨fun _ => 1, fun _ => 0, fun _ => 0⟩⟩,
   ⟨[1], .cost 1 fun _ _ => 1⟩,
   ⟨[0, 1], .soc (Soc.ofMatrices 2 2 (fun i j => if i = j + 1 then 1 else 0) fun i => if i = 0 then 2 else 0)
     ⟨⟨1, fun _ => 0⟩, ⟨0, fun _ => 0⟩⟩⟩]

/-- The setup with a given solver. -/
noncomputable def exSetup (k : Sup.Kkt) : Setup ℝ := ⟨2, fun _ => 1, 1, 1, k, false, 1, Sup.realLlt, fun _ _ b => b⟩

/-- The start. -/
noncomputable def exState (m : Sup.Store ℝ) : State ℝ :=
  ⟨exEs, exEs.map fun e => ⟨e.vars.length, fun _ _ => 0, fun _ => 0, fun _ => 0, 0, 0⟩, m⟩

theorem ex_good : ∀ e ∈ exEs, Gap.Spec.Good e 2 := by
  intro e he
  simp only [exEs, List.mem_cons, List.not_mem_nil, or_false] at he
  rcases he with rfl | rfl | rfl
  · exact ⟨by decide, by decide, rfl, fun _ _ => one_pos⟩
  · refine ⟨by decide, by decide, rfl, fun _ _ _ _ => rfl, fun x => ?_⟩
    simpa using mul_self_nonneg (x 0)
  · refine ⟨by decide, by decide, rfl, ⟨rfl, rfl⟩, one_pos, ?_⟩
    simp [Soc.dot]

theorem ex_solves (n : Nat) : MatrixExp.Spec.Solves (Gap.exEnv.solve n) := fun D M h => by
  show D * (D⁻¹ * M) = M
  rw [← Matrix.mul_assoc, Matrix.mul_nonsing_inv D h, Matrix.one_mul]

theorem ex_ready (m : Sup.Store ℝ) : ∃ k, Ready (exSetup k) [[], [], []] (exState m) ∧
    ∀ e ∈ (exState m).es, ¬ MatrixCone e.item := by
  obtain ⟨k, hk, hn⟩ : ∃ k, Sup.kktInit [[0, 1], [1], [0, 1]] [[], [], []] = .ok k ∧ Sup.Spec.NoShift k :=
    ⟨_, rfl, Sup.noShift_of_bounded (n := 3) (by decide +kernel) (by decide +kernel)⟩
  refine ⟨k, ⟨⟨hk, Sup.realLlt_contract, rfl, rfl, ?_, hn, ?_⟩, Sup.realLlt_complete, by simp, ex_good, ?_, ?_, ?_⟩, ?_⟩
  · intro i c dv _ h
    have := List.mem_of_getElem? h
    simp only [List.mem_cons, List.not_mem_nil, or_false, or_self] at this
    exact ⟨c, by simp [this]⟩
  · intro u
    simp [exState, exEs, exSetup]
    omega
  · intro e he
    simp only [exState, exEs, List.mem_cons, List.not_mem_nil, or_false] at he
    rcases he with rfl | rfl | rfl <;> simp [Usable]
  · simp [Sized, exState, Function.comp_def]
  · rintro z ⟨u, hu, hz⟩
    refine ⟨exEs[0], by simp [exState, exEs], fun h => hz ?_⟩
    have : u = 0 ∨ u = 1 := by simp [exSetup] at hu; omega
    rcases this with rfl | rfl
    · have := h 0 (by simp)
      simpa [Finset.sum_range_succ, exEs] using this
    · have := h 1 (by simp)
      simpa [Finset.sum_range_succ, exEs] using this
  · intro e he
    simp only [exState, exEs, List.mem_cons, List.not_mem_nil, or_false] at he
    rcases he with rfl | rfl | rfl <;> simp [MatrixCone]

/-- The hypotheses of `C74_defined`, `C74_forever` and `C74_vector`. -/
example (m : Sup.Store ℝ) (k : Nat → ℝ) (hk : ∀ i, 0 < k i) : ∃ (s : Sup.Kkt) (x : Nat → State ℝ)
    (st : Nat → Step ℝ), x 0 = exState m ∧
    ∀ j, iterate Gap.exEnv (exSetup s) (k j) (x j) = .ok (some (st j, x (j + 1))) ∧
      ((st j).norm ≤ 1 → Feasible exEs (fun u => (st j).y u / (k j * 1))) := by
  obtain ⟨s, h1, h2⟩ := ex_ready m
  obtain ⟨x, st, h3, h4⟩ := C74_vector Gap.exEnv Gap.exEnv_sqrt Real.exp_pos ex_solves (exSetup s) one_pos one_pos _
    _ h1 h2 k hk
  exact ⟨s, x, st, h3, fun j => ⟨(h4 j).1, fun h => ((h4 j).2 h).1⟩⟩

/-- The setup of "maximise `y` subject to `y ≤ 1`". -/
noncomputable def exSetup1 (k : Sup.Kkt) : Setup ℝ := ⟨1, fun _ => 1, 1, 1, k, false, 0, Sup.realLlt, fun _ _ b => b⟩

/-- Its start. -/
noncomputable def exState1 (m : Sup.Store ℝ) : State ℝ := ⟨Infeasible.oneEs 1 1, [Gap.sysr 1], m⟩

/-- The first iteration with barrier parameter 1 has norm zero. -/
theorem ex_one (m : Sup.Store ℝ) : ∃ (s : Sup.Kkt) (st : Step ℝ) (x' : State ℝ),
    Built (exSetup1 s) [[]] (exState1 m).es ∧ Sized (exState1 m).es (exState1 m).sys ∧
    iterate Gap.exEnv (exSetup1 s) 1 (exState1 m) = .ok (some (st, x')) ∧ Unregularized st ∧ st.norm = 0 := by
  obtain ⟨k, hk, hn⟩ : ∃ k, Sup.kktInit [[0]] [[]] = .ok k ∧ Sup.Spec.NoShift k :=
    ⟨_, rfl, Sup.noShift_of_bounded (n := 1) (by decide +kernel) (by decide +kernel)⟩
  have hr : Ready (exSetup1 k) [[]] (exState1 m) := by
    refine ⟨⟨hk, Sup.realLlt_contract, rfl, rfl, ?_, hn, ?_⟩, Sup.realLlt_complete, by simp, Infeasible.one_good 1 1, ?_,
      rfl, ?_⟩
    · intro i c dv _ h
      have := List.mem_of_getElem? h
      simp only [List.mem_cons, List.not_mem_nil, or_false] at this
      exact ⟨c, by simp [this]⟩
    · intro u
      simp [exState1, Infeasible.oneEs, exSetup1]
    · intro e he
      simp only [exState1, Infeasible.oneEs, List.mem_singleton] at he
      subst he
      simp [Usable]
    · rintro z ⟨u, hu, hz⟩
      obtain rfl : u = 0 := by simpa [exSetup1] using hu
      refine ⟨_, List.mem_cons_self, fun h => hz ?_⟩
      simpa using h 0 (by simp)
  obtain ⟨st, x', h1, h2⟩ := iterate_total Gap.exEnv_sqrt Real.exp_pos hr 1
  refine ⟨k, st, x', hr.built, hr.sized, h1, h2, ?_⟩
  obtain ⟨⟨s, r, h3, h4, -⟩, -⟩ := iterate_values hr.built (fun e he => (hr.good e he).1) hr.sized h1 h2
  obtain ⟨s₀, h5, h6⟩ := h3 0 _ rfl
  have h7 := h4 0 one_pos
  have h8 := congrArg Gap.sysOf h6
  simp only [Gap.sysOf] at h8
  have hy : st.y 0 = 0 := by
    simp [Sup.Spec.total, Sup.Spec.entry, Sup.Spec.ventry, exState1, exSetup1, Infeasible.oneEs, List.range_succ, ← h8,
      Item.schur, Linear.schur, Gap.sysOf, Schur.setTop, Schur.setTopLeft, Schur.Sys.setZero,
      show s₀.rows = 1 from h5] at h7
    linarith
  obtain ⟨-, -, -, -, es', -, -, -, -, -, -, -, h9, -⟩ := iterate_ok h1
  simp [Dual.prepareStep, Dual.prepareLoop, exState1, exSetup1, Infeasible.oneEs, gather, Item.prepareStep,
    Linear.prepareStep, Linear.negativeSlack, Linear.maxCoeff, updateNorm, hy] at h9
  exact h9.2.1.symm

/-- The hypotheses of `C74_run_partial` and `C74_bounds_partial`. -/
example (m : Sup.Store ℝ) : ∃ st : Step ℝ, Feasible (Infeasible.oneEs 1 1) (fun u => st.y u / (1 * 1)) ∧
    ∀ z, Feasible (Infeasible.oneEs 1 1) z → ∑ u ∈ range 1, 1 * z u ≤ st.cx := by
  obtain ⟨s, st, x', h1, h2, h3, h4, h5⟩ := ex_one m
  have hc : Chain Gap.exEnv (exSetup1 s) (fun _ => 1) 0 (fun i => if i = 0 then exState1 m else x') (fun _ => st) := by
    intro i hi
    obtain rfl : i = 0 := by omega
    exact h3
  have hn : ∀ i ≤ 0, ∀ e ∈ (if i = 0 then exState1 m else x').es,
      Bounded (1 * (exSetup1 s).cs) st.norm (fun l => st.y (e.vars.getD l 0)) e.item := by
    intro i hi
    obtain rfl : i = 0 := by omega
    exact Infeasible.one_bounded _ _ _ _ _
  refine ⟨st, (C74_run_partial Gap.exEnv Gap.exEnv_sqrt Real.exp_pos ex_solves (exSetup1 s) one_pos one_pos [[]]
    (fun _ => 1) 0 one_pos _ _ h1 h2 (Infeasible.one_good 1 1) (Infeasible.one_separate 1 1 _) hc (fun _ _ => h4) hn
    (by rw [h5]; exact zero_le_one)).1, (C74_bounds_partial Gap.exEnv Gap.exEnv_sqrt Real.exp_pos ex_solves
    (exSetup1 s) one_pos one_pos [[]] (fun _ => 1) 0 one_pos _ _ h1 h2 (Infeasible.one_good 1 1)
    (Infeasible.one_noCost 1 1) (Infeasible.one_separate 1 1 _) hc (fun _ _ => h4) hn
    (by rw [h5]; exact zero_le_one)).2⟩

end Verif.Iteration
