import Verif.Lemmas.Infeasible
import Verif.Props.KktError

/-!
# C73: what the infeasibility flags say

`primal_infeasible` should mean that no point satisfies the constraints, and `dual_infeasible` that the dual
program has no feasible point, so that the objective is unbounded above if there are feasible points.
-/

namespace Verif.Infeasible

open Finset Dual Gap Gap.Spec Spec

/-! ### The objective values are bounds -/

/-- One iteration: if the norm that is reported for the direction is at most one, then `by` is the objective
value of a feasible point, and `cx` is an upper bound of the objective values of all feasible points.
Partial as C71: the direction of a matrix inequality must be within the norm. -/
theorem C73_bounds_partial (v : Env ℝ) (hv : ∀ x, 0 ≤ x → SolveLoop.Spec.SqrtAt v.sqrt x) (N : Nat)
    (y b : Nat → ℝ) (k bs cs : ℝ) (hk : 0 < k) (hbs : 0 < bs) (hcs : 0 < cs) (es : List (Entry ℝ))
    (hg : ∀ e ∈ es, Gap.Spec.Good e N) (hc : NoCost es) (hsep : Separate es b) (cx bY : ℝ)
    (hval : Values v.sqrt N b k bs cs es y cx bY) (es' : List (Entry ℝ)) (A B : ℝ)
    (hp : Dual.prepareStep v (k * cs) N y es = .ok (es', A, B)) (hA : A ≤ 1)
    (hex : ∀ e ∈ es, Bounded (k * cs) A (fun j => y (e.vars.getD j 0)) e.item) :
    (∃ z, Feasible es z ∧ ∑ u ∈ range N, b u * z u = bY) ∧
    ∀ z, Feasible es z → ∑ u ∈ range N, b u * z u ≤ cx := by
  obtain ⟨s, r, hs, hy, hr, rfl, rfl⟩ := hval
  obtain ⟨h1, h2⟩ := C71_gap_partial v hv N y b k bs cs hk hbs hcs es hg hsep (system_of hs hy) es' A B hp hA hex
  have h3 := KktError.C72_identity_partial v hv N y b k bs cs hk hbs hcs es
    (fun e he => regular_of (hg e he) (hc e he)) hsep s hs hy r hr es' A B hp
  refine ⟨⟨_, h1, byValue_eq N b y k cs⟩, fun z hz => ?_⟩
  have h4 := h2 z hz
  rw [objective_noCost hc, objective_noCost hc, byValue_eq] at h4
  linarith

theorem ex_noCost : NoCost KktError.exEs := by
  intro e he n Q
  simp only [KktError.exEs, List.mem_cons, List.not_mem_nil, or_false] at he
  rcases he with rfl | rfl <;> exact fun h => by cases h

theorem ex_values : ∃ cx bY, Values exEnv.sqrt 2 exB 1 1 1 KktError.exEs KktError.exY cx bY := by
  obtain ⟨r, hr⟩ := KktError.ex_resid
  exact ⟨_, _, _, r, KktError.ex_contributions, KktError.ex_solves, hr, rfl, rfl⟩

example : ∃ cx bY, (∃ z, Feasible KktError.exEs z ∧ ∑ u ∈ range 2, exB u * z u = bY) ∧
    ∀ z, Feasible KktError.exEs z → ∑ u ∈ range 2, exB u * z u ≤ cx := by
  obtain ⟨cx, bY, h⟩ := ex_values
  obtain ⟨es', hp⟩ := KktError.ex_step
  refine ⟨cx, bY, C73_bounds_partial exEnv exEnv_sqrt 2 KktError.exY exB 1 1 1 one_pos one_pos one_pos KktError.exEs
    KktError.ex_good ex_noCost KktError.ex_separate cx bY h es' _ _ hp (by norm_num) fun e he => ?_⟩
  simp only [KktError.exEs, List.mem_cons, List.not_mem_nil, or_false] at he
  rcases he with rfl | rfl <;> trivial

/-! ### The flags -/

/-- A solve that sets a flag, after a last direction of norm at most one.  If it says that the constraints are
infeasible, then the objective value of every feasible point is below `-√threshold / 2`; if it says that the
dual program is infeasible, then there is a feasible point with objective value above `√threshold / 2`.
Partial: there may be feasible points in the first case, and the objective may be bounded in the second, see
`C73_primal_violated` and `C73_dual_violated`. -/
theorem C73_flags_partial (v : Env ℝ) (hv : ∀ x, 0 ≤ x → SolveLoop.Spec.SqrtAt v.sqrt x)
    (he : ∀ x, 0 < v.exp x) (hs : ∀ n, MatrixExp.Spec.Solves (v.solve n)) (p : SolveLoop.Prog ℝ)
    (cfg : SolveLoop.Config ℝ) (o : SolveLoop.Oracle ℝ) (r : SolveLoop.Result ℝ)
    (hmu : 0 ≤ 1 / 10 ^ 15 + cfg.maximumMu)
    (ha : p.quadratic = false ∨ (cfg.lineSearch = true ∧ cfg.rescaling = false))
    (h : SolveLoop.solve v.sqrt p cfg o = .ok r)
    (hflag : r.prog.status.primalInf = true ∨ r.prog.status.dualInf = true)
    (j : Nat) (hout : r.out = .raw (some j)) (hj : o.norm j ≤ 1)
    (N : Nat) (b k : Nat → ℝ) (bs cs : ℝ) (hbs : 0 < bs) (hcs : 0 < cs)
    (hkj : SolveLoop.Spec.lastParameter r.trace = some (k j))
    (es : Nat → List (Entry ℝ)) (y : Nat → Nat → ℝ) (hr : Run v N b bs cs k o.norm j es y)
    (hval : Values v.sqrt N b (k j) bs cs (es j) (y j) (o.cx j) (o.bY j))
    (hg : ∀ e ∈ es 0, Gap.Spec.Good e N) (hc : NoCost (es 0)) (hsep : Separate (es 0) b)
    (hb : ∀ i ≤ j, ∀ e ∈ es i, Bounded (k i * cs) (o.norm i) (fun l => y i (e.vars.getD l 0)) e.item) :
    (r.prog.status.primalInf = true → ∀ z, Feasible (es 0) z →
      ∑ u ∈ range N, b u * z u < 0 ∧ cfg.infeasThreshold < 4 * (∑ u ∈ range N, b u * z u) ^ 2) ∧
    (r.prog.status.dualInf = true → ∃ z, Feasible (es 0) z ∧
      0 < ∑ u ∈ range N, b u * z u ∧ cfg.infeasThreshold < 4 * (∑ u ∈ range N, b u * z u) ^ 2) := by
  have hk0 : 0 ≤ SolveLoop.kMin v.sqrt cfg := (hv _ (one_div_nonneg.2 hmu)).1
  obtain ⟨-, -, hC⟩ := SolveLoop.C26_success hk0 ha h
  obtain ⟨-, j', k', hj1, hj2, hthr, hpi, hdi⟩ := hC hflag
  rw [hkj, Option.some.injEq] at hj2
  have hjk : j' = j ∧ 0 ≤ k j := by
    have hcn : p.constraints ≠ 0 := by
      intro hz
      unfold SolveLoop.solve at h
      have hz' : (SolveLoop.clearStatus p).constraints = 0 := hz
      rw [if_neg (not_not.2 ha)] at h
      simp only [hz', if_true, Outcome.ok.injEq] at h
      subst h
      cases hout
    obtain ⟨p', st, -, -, -, -, c', s, hl, hcase⟩ := SolveLoop.solve_ok ha hcn h
    rcases hcase with ⟨rfl, rfl⟩ | ⟨rfl, rfl⟩ | ⟨rfl, hp⟩
    · cases hout
    · cases hout
    · obtain ⟨i', -, hI, -⟩ := SolveLoop.exit_loop hk0 hl
      obtain ⟨n', -, -, -, -, htr, -, ho⟩ := SolveLoop.post_ok hp
      have e1 : SolveLoop.Spec.lastCompleted r.trace = SolveLoop.Spec.lastCompleted s.trace := by
        rw [htr]
        split_ifs <;> rfl
      have e2 : SolveLoop.Spec.lastParameter r.trace = SolveLoop.Spec.lastParameter s.trace := by
        rw [htr]
        split_ifs <;> rfl
      rw [e1] at hj1
      rw [e2] at hkj
      rcases ho with ⟨-, ho⟩ | ⟨-, c'', -, ho⟩
      · rw [hout, SolveLoop.Output.raw.injEq, hI.y, hj1, Option.some.injEq] at ho
        obtain ⟨-, -, -, h4, h5, -⟩ := hI.onSome j' hj1
        rw [h4, Option.some.injEq] at hkj
        exact ⟨ho.symm, hkj ▸ hk0.trans h5⟩
      · rw [hout] at ho
        cases ho
  obtain ⟨rfl, hk⟩ := hjk
  subst hj2
  have hne : k j' ≠ 0 := by
    intro h0
    rw [h0, mul_zero] at hpi hdi
    rcases hflag with hf | hf
    · exact absurd (hpi.1 hf) (by norm_num)
    · exact absurd (hdi.1 hf) (by norm_num)
  have hpos : 0 < k j' := lt_of_le_of_ne hk (Ne.symm hne)
  have hthr' : cfg.infeasThreshold < 1 / k j' * (1 / k j') := hthr.resolve_left hne
  obtain ⟨h1, h2⟩ := run_good hv he hs hr hg (fun i hi => hb i hi.le) j' le_rfl
  obtain ⟨h3, es', B, h4, -⟩ := hr j' le_rfl
  obtain ⟨⟨z₀, h5, h6⟩, h7⟩ := C73_bounds_partial v hv N (y j') b (k j') bs cs hpos hbs hcs (es j') h1
    (run_noCost hr hc j' le_rfl) (h2.separate hsep) _ _ hval es' _ B h4 hj (hb j' le_rfl)
  have key : ∀ t : ℝ, 1 / 2 ≤ t * k j' → 0 < t ∧ cfg.infeasThreshold < 4 * t ^ 2 := by
    intro t ht
    have e : 1 / k j' ≤ 2 * t := by
      rw [div_le_iff₀ hpos]
      linarith
    have e0 : 0 < 1 / k j' := one_div_pos.2 hpos
    exact ⟨by linarith, by nlinarith⟩
  refine ⟨fun hf z hz => ?_, fun hf => ⟨z₀, (h2.feasible z₀).1 h5, ?_⟩⟩
  · have h8 := h7 z ((h2.feasible z).2 hz)
    have h9 := hpi.1 hf
    obtain ⟨h10, h11⟩ := key (-∑ u ∈ range N, b u * z u) (by nlinarith)
    exact ⟨by linarith, by rwa [neg_sq] at h11⟩
  · rw [h6]
    exact key _ (hdi.1 hf)

/-! ### Feasible and bounded programs that are flagged -/

/-- The constraint `a y ≤ c` with scaling point 1. -/
def oneEs (a c : ℝ) : List (Entry ℝ) :=
  [⟨[0], .linear ⟨1, 1, fun _ _ => a, fun _ => c⟩ ⟨fun _ => 1, fun _ => 0, fun _ => 0⟩⟩]

theorem one_good (a c : ℝ) : ∀ e ∈ oneEs a c, Gap.Spec.Good e 1 := by
  intro e he
  simp only [oneEs, List.mem_singleton] at he
  subst he
  exact ⟨by simp, by simp, rfl, fun _ _ => one_pos⟩

theorem one_noCost (a c : ℝ) : NoCost (oneEs a c) := by
  intro e he n Q
  simp only [oneEs, List.mem_singleton] at he
  subst he
  exact fun h => by cases h

theorem one_separate (a c : ℝ) (b : Nat → ℝ) : Separate (oneEs a c) b := by
  intro i e o he ho
  have := List.mem_of_getElem? he
  simp only [oneEs, List.mem_singleton] at this
  subst this
  cases ho

theorem one_bounded (a c k A : ℝ) (y : Nat → ℝ) :
    ∀ e ∈ oneEs a c, Bounded k A (fun j => y (e.vars.getD j 0)) e.item := by
  intro e he
  simp only [oneEs, List.mem_singleton] at he
  subst he
  trivial

theorem one_feasible (a c : ℝ) (z : Nat → ℝ) : Feasible (oneEs a c) z ↔ a * z 0 ≤ c := by
  simp [Feasible, oneEs, Sat]

/-- The values of an iteration for the cost `b y`, where `a = ±1`. -/
theorem one_values (sqrt : ℝ → ℝ) (a c b k t cx bY : ℝ) (ha : a * a = 1) (ht : t = k * (b + a * c) - 2 * a)
    (hcx : cx = (2 * c + a * c * t - k * (c * c)) / k) (hby : bY = b * t / k) :
    Values sqrt 1 (fun _ => b) k 1 1 (oneEs a c) (fun _ => t) cx bY := by
  subst hcx hby
  obtain ⟨r, h1, h2, h3, -, h5⟩ := Sup.C19_residuals 1 ((oneEs a c).map Entry.vars)
    (fun _ => KktError.resid (sysOf (((oneEs a c).head?.map Entry.item).elim .ub fun x =>
      x.schur sqrt (sysr 1)))) (by simp [oneEs]) (by simp [oneEs])
  refine ⟨fun _ => sysOf (((oneEs a c).head?.map Entry.item).elim .ub fun x => x.schur sqrt (sysr 1)), r,
    forall_get fun i hi => ?_, fun u hu => ?_, h1, ?_, ?_⟩
  · obtain rfl : i = 0 := by simpa [oneEs] using hi
    exact ⟨sysr 1, rfl, rfl⟩
  · obtain rfl : u = 0 := by omega
    simp [Sup.Spec.total, Sup.Spec.entry, Sup.Spec.ventry, oneEs, List.range_succ, Item.schur, Linear.schur, sysOf,
      sysr, Schur.setTop, Schur.setTopLeft, Schur.Sys.setZero]
    rw [ha, ht]
    ring
  · have f2 : r.wc = c := by
      rw [h2]
      simp [oneEs, List.range_succ, KktError.resid, sysOf, sysr, Item.schur, Linear.schur, Schur.Sys.setZero]
    have f3 : r.cQc = c * c := by
      rw [h3]
      simp [oneEs, List.range_succ, KktError.resid, sysOf, sysr, Item.schur, Linear.schur, Schur.Sys.setZero]
    have f5 : r.AQc 0 = a * c := by
      rw [h5]
      simp [oneEs, List.range_succ, KktError.resid, sysOf, sysr, Item.schur, Linear.schur, Sup.Spec.ventry,
        Schur.setTop, Schur.Sys.setZero]
    simp [KktError.cxValue, f2, f3, f5]
  · simp [KktError.byValue]

theorem one_step (v : Env ℝ) (a c k t d : ℝ) (hd : a * t + -(k * 1 * c) + 1 = -d) (h0 : 0 ≤ d) :
    ∃ es', Dual.prepareStep v (k * 1) 1 (fun _ => t) (oneEs a c) = .ok (es', d, d * d) := by
  simp [Dual.prepareStep, Dual.prepareLoop, oneEs, gather, Item.prepareStep, Linear.prepareStep,
    Linear.negativeSlack, Linear.maxCoeff, updateNorm] at hd ⊢
  rw [show a * t - c * k + 1 = -d by linarith]
  simp [abs_of_nonneg h0]
  intro h
  linarith

theorem one_run (v : Env ℝ) (a c b k t d cx bY : ℝ) (hd : a * t + -(k * 1 * c) + 1 = -d) (h0 : 0 ≤ d)
    (hval : Values v.sqrt 1 (fun _ => b) k 1 1 (oneEs a c) (fun _ => t) cx bY) :
    Run v 1 (fun _ => b) 1 1 (fun _ => k) (fun _ => d) 0 (fun _ => oneEs a c) (fun _ _ => t) := by
  intro i hi
  obtain ⟨es', h⟩ := one_step v a c k t d hd h0
  obtain ⟨s, r, h1, h2, -⟩ := hval
  exact ⟨system_of h1 h2, es', _, h, fun h => by omega⟩

/-- C73 fails for the constraints: "maximise `-y` subject to `-y ≤ -1000`" has the feasible point 1000 and is
flagged infeasible after one iteration.  The options are the default ones, except that the barrier parameter
is fixed at 10⁶, that the tolerance of the norm is 1, and that there is no rescaling. -/
theorem C73_primal_violated (v : Env ℝ) (hv : ∀ x, 0 ≤ x → SolveLoop.Spec.SqrtAt v.sqrt x)
    (o : SolveLoop.Oracle ℝ) (h1 : o.factorOk 0 = true) (h2 : o.kkt 0 ≤ 10 ^ 10)
    (h3 : o.norm = fun _ => 999 / 1000) (h4 : o.cx 0 = -1000) (h5 : o.bY 0 = -2999) :
    Run v 1 (fun _ => -1) 1 1 (fun _ => 1 / 1000) o.norm 0 (fun _ => oneEs (-1) (-1000))
      (fun _ _ => 2999 / 1000) ∧
    Values v.sqrt 1 (fun _ => -1) (1 / 1000) 1 1 (oneEs (-1) (-1000)) (fun _ => 2999 / 1000) (o.cx 0) (o.bY 0) ∧
    Feasible (oneEs (-1) (-1000)) (fun _ => 1000) ∧
    ∃ r, SolveLoop.solve v.sqrt (exProgram false 1) (exOptions (1 / 1000) 1 false) o = .ok r ∧
      r.out = .raw (some 0) ∧ SolveLoop.Spec.lastParameter r.trace = some (1 / 1000) ∧
      r.prog.status.primalInf = true := by
  have hval : Values v.sqrt 1 (fun _ => -1) (1 / 1000) 1 1 (oneEs (-1) (-1000)) (fun _ => 2999 / 1000) (o.cx 0)
      (o.bY 0) := by
    rw [h4, h5]
    exact one_values _ _ _ _ _ _ _ _ (by norm_num) (by norm_num) (by norm_num) (by norm_num)
  refine ⟨by rw [h3]; exact one_run v _ _ _ _ _ _ _ _ (by norm_num) (by norm_num) hval, hval,
    (one_feasible _ _ _).2 (by norm_num), ?_⟩
  obtain ⟨r, h6, -, h7, -, h8, h9⟩ := SolveLoop.fixed_flags (o := o)
    (exOptions_fixed hv (by norm_num : (0 : ℝ) < 1 / 1000) 1 false)
    (hv _ (by norm_num [exOptions])).1 (by norm_num [exOptions])
    (p := exProgram false 1) (Or.inl rfl) (by decide) h1 h2 (by norm_num [exOptions])
    (by rw [h3]; norm_num [exOptions, abs_of_pos])
  refine ⟨r, h6, h7, h8, ?_⟩
  rw [h9, h4]
  norm_num

/-- C73 fails for the dual program: "maximise `y` subject to `y ≤ 3000`" is flagged as having no dual feasible
point after one iteration, although `x = 1` satisfies the equation `x = 1` of the dual program and the
objective is bounded by 3000. -/
theorem C73_dual_violated (v : Env ℝ) (hv : ∀ x, 0 ≤ x → SolveLoop.Spec.SqrtAt v.sqrt x)
    (o : SolveLoop.Oracle ℝ) (h1 : o.factorOk 0 = true) (h2 : o.kkt 0 ≤ 10 ^ 10)
    (h3 : o.norm = fun _ => 999 / 1000) (h4 : o.cx 0 = 3000) (h5 : o.bY 0 = 1001) :
    Run v 1 (fun _ => 1) 1 1 (fun _ => 1 / 1000) o.norm 0 (fun _ => oneEs 1 3000) (fun _ _ => 1001 / 1000) ∧
    Values v.sqrt 1 (fun _ => 1) (1 / 1000) 1 1 (oneEs 1 3000) (fun _ => 1001 / 1000) (o.cx 0) (o.bY 0) ∧
    (∀ z, Feasible (oneEs 1 3000) z → ∑ u ∈ range 1, 1 * z u ≤ 3000) ∧
    ∃ r, SolveLoop.solve v.sqrt (exProgram false 1) (exOptions (1 / 1000) 1 false) o = .ok r ∧
      r.out = .raw (some 0) ∧ SolveLoop.Spec.lastParameter r.trace = some (1 / 1000) ∧
      r.prog.status.dualInf = true := by
  have hval : Values v.sqrt 1 (fun _ => 1) (1 / 1000) 1 1 (oneEs 1 3000) (fun _ => 1001 / 1000) (o.cx 0)
      (o.bY 0) := by
    rw [h4, h5]
    exact one_values _ _ _ _ _ _ _ _ (by norm_num) (by norm_num) (by norm_num) (by norm_num)
  refine ⟨by rw [h3]; exact one_run v _ _ _ _ _ _ _ _ (by norm_num) (by norm_num) hval, hval,
    fun z hz => by simpa using (one_feasible _ _ _).1 hz, ?_⟩
  obtain ⟨r, h6, -, h7, -, h8, h9⟩ := SolveLoop.fixed_flags (o := o)
    (exOptions_fixed hv (by norm_num : (0 : ℝ) < 1 / 1000) 1 false)
    (hv _ (by norm_num [exOptions])).1 (by norm_num [exOptions])
    (p := exProgram false 1) (Or.inl rfl) (by decide) h1 h2 (by norm_num [exOptions])
    (by rw [h3]; norm_num [exOptions, abs_of_pos])
  refine ⟨r, h6, h7, h8, ?_⟩
  rw [h9, h5]
  norm_num

/-- An oracle with given norm and objective values. -/
noncomputable def oneOracle (d cx bY : ℝ) : SolveLoop.Oracle ℝ :=
  ⟨fun _ => true, fun _ => 1, fun _ => 1, fun _ => d, fun _ => cx, fun _ => bY, fun _ => 0, 1, 1⟩

/-- The first program meets the hypotheses of `C73_flags_partial`. -/
example : ∀ z, Feasible (oneEs (-1) (-1000)) z → ∑ u ∈ range 1, -1 * z u < 0 ∧
    (10 : ℝ) ^ 5 < 4 * (∑ u ∈ range 1, -1 * z u) ^ 2 := by
  obtain ⟨h1, h2, -, r, h3, h4, h5, h6⟩ := C73_primal_violated exEnv exEnv_sqrt (oneOracle (999 / 1000) (-1000) (-2999))
    rfl (by norm_num [oneOracle]) rfl rfl rfl
  have hs : ∀ n, MatrixExp.Spec.Solves (exEnv.solve n) := fun n D M h => by
    show D * (D⁻¹ * M) = M
    rw [← Matrix.mul_assoc, Matrix.mul_nonsing_inv D h, Matrix.one_mul]
  have hn : (oneOracle (999 / 1000) (-1000) (-2999)).norm 0 ≤ 1 := by norm_num [oneOracle]
  have hmu : 0 ≤ 1 / 10 ^ 15 + (exOptions (1 / 1000) 1 false).maximumMu := by norm_num [exOptions]
  have := (C73_flags_partial exEnv exEnv_sqrt Real.exp_pos hs
    (exProgram false 1) (exOptions (1 / 1000) 1 false) _ r hmu (Or.inl rfl) h3 (Or.inl h6)
    0 h4 hn 1 (fun _ => -1) (fun _ => 1 / 1000) 1 1 one_pos one_pos h5
    (fun _ => oneEs (-1) (-1000)) (fun _ _ => 2999 / 1000) h1 h2 (one_good _ _) (one_noCost _ _)
    (one_separate _ _ _) fun _ _ => one_bounded _ _ _ _ fun _ => 2999 / 1000).1 h6
  intro z hz
  obtain ⟨h7, h8⟩ := this z hz
  refine ⟨h7, lt_of_eq_of_lt ?_ h8⟩
  simp only [exOptions]

end Verif.Infeasible
