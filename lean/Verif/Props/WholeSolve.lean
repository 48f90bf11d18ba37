import Verif.Lemmas.WholeDual
import Verif.Lemmas.WholeExit
import Verif.Lemmas.WholeRefines

/-!
# C75: solving vector cone programs

The composed model of `Solve` on a cold start: for programs of linear inequalities, second-order and quadratic cones
with convex quadratic costs, `Solve` is defined whatever the line search, the divergence bound and the KKT error
say, and if it reports success with a last direction of norm at most one, then the array holds a feasible point
that is optimal up to a gap.
-/

namespace Verif.Whole

open Finset Dual Iteration.Spec Spec

/-- `Solve` on a cold start with at least one iteration and one final centering step.  All hypotheses are about the
program, the options and the external functions; the answers `c` of the line search, the divergence bound and the
KKT error are arbitrary.  Partial: the bound holds if the norm of the last direction is at most one, which a
successful return does not imply. -/
theorem C75_solve_partial (v : Env ℝ) (hv : ∀ x, 0 ≤ x → SolveLoop.Spec.SqrtAt v.sqrt x) (he : ∀ x, 0 < v.exp x)
    (hs : ∀ n, MatrixExp.Spec.Solves (v.solve n)) (l : Linear ℝ) (hl : Dense.Spec.LltContract l.llt)
    (hc : Dense.Spec.LltComplete l.llt) (hqr : l.useQr = false) (P : Program ℝ) (hP : VectorProgram P)
    (cfg : SolveLoop.Config ℝ) (hmode : cfg.mode = 0) (hmu : 0 ≤ 1 / 10 ^ 15 + cfg.maximumMu)
    (hsteps : 0 < cfg.finalSteps) (hmax : 0 < cfg.maxIter)
    (hq : P.quadratic = false ∨ (cfg.lineSearch = true ∧ cfg.rescaling = false)) (status : SolveLoop.Status)
    (c : SolveLoop.Oracle ℝ) :
    ∃ r st, solve v l P cfg status c = .ok r ∧ r.last = some st ∧ (∃ es, r.es = some es) ∧
      (r.res.ret = true → ∃ k kMax stats bs cs z, r.res.final = some (k, kMax) ∧ r.res.prog.stats = some stats ∧
        stats.bScale = some bs ∧ stats.cScale = some cs ∧ 0 < k ∧ 0 < bs ∧ 0 < cs ∧ r.array = some z ∧
        (st.norm ≤ 1 → Gap.Spec.Feasible P.es z ∧ ∀ x, Gap.Spec.Feasible P.es x →
          value P z ≤ value P x + (rank P.es - st.normsqrd) / (k ^ 2 * bs * cs))) := by
  obtain ⟨kkt, q, j, bs, cs, k, X, ST, res, es, h2, hr, hm, hN, -, hsol, h5, h4, hret⟩ :=
    solve_ok hv he hs hl hc hqr hP hmode hmu hsteps hmax hq status c
  obtain ⟨-, hkj, hlast, -⟩ := h2.last j rfl
  have hbs := h2.bScale
  have hcs := h2.cScale
  rw [if_neg (by omega)] at hbs hcs
  refine ⟨⟨res, array res.out q.last, q.last, some es⟩, ST j, hsol, hlast, ⟨es, rfl⟩, fun h => ?_⟩
  · obtain ⟨h3, h6, -⟩ := hret h
    have hk0 : 0 < k j := by
      rw [← hkj]
      refine lt_of_le_of_ne h2.nonneg fun h => ?_
      simp [SolveLoop.overThreshold, ← h] at h3
    refine ⟨q.s.k, q.s.kMax, q.s.stats, bs, cs, fun u => (ST j).y u / q.s.k / cs, h4, h5, hbs, hcs, hkj ▸ hk0, h2.bpos,
      h2.cpos, by simp only [h6, hlast, array], fun hn => ?_⟩
    have hready := inv_ready hv he hs h2 hr hm
    have hz := h2.zero
    have key := Iteration.C74_run_partial v hv he hs _ h2.bpos h2.cpos P.duals k j hk0 X ST
      (hready 0 (by omega)).1.built (hready 0 (by omega)).1.sized (hready 0 (by omega)).1.good ?_
      (fun i hi => h2.steps i (by omega)) (fun i hi => h2.regular i (by omega)) (fun i hi e he => ?_) hn
    · rw [hz] at key
      have hr1 : cs / bs = 1 ∨ ∀ e ∈ P.es, ∀ n Q, e.item ≠ .cost n Q := by
        rcases hq with hq | hq
        · right
          intro e he n Q hx
          rw [hP.costs e he n Q hx] at hq
          cases hq
        · left
          obtain ⟨rfl, rfl⟩ := h2.plain hq.2
          norm_num
      have hzz : (fun u => (ST j).y u / q.s.k / cs) = fun u => (ST j).y u / (k j * cs) := by
        funext u
        rw [hkj, div_div]
      obtain ⟨h7, h8⟩ := key
      rw [hzz, hkj]
      refine ⟨(feasible_start P _).1 h7, fun x hx => ?_⟩
      have := h8 x ((feasible_start P _).2 hx)
      simp only [scaled] at this
      rw [objective_start hN hr1, objective_start hN hr1, rank_start] at this
      linarith
    · intro i e o h7 h8
      have := (hready 0 (by omega)).1.usable e (List.mem_of_getElem? h7)
      rw [h8] at this
      exact this.elim
    · have hmc := (hready i (by omega)).2 e he
      cases hx : e.item <;> rw [hx] at hmc <;> first | trivial | exact (hmc trivial).elim

/-- The full statement, for options with which a solve only succeeds after a short direction: the tolerance on the last
direction is at most one, and the final centering steps cannot be used up before the iterations are.  (With the
defaults, 5 final steps and 25 iterations, they can.) -/
theorem C75_centered (v : Env ℝ) (hv : ∀ x, 0 ≤ x → SolveLoop.Spec.SqrtAt v.sqrt x) (he : ∀ x, 0 < v.exp x)
    (hs : ∀ n, MatrixExp.Spec.Solves (v.solve n)) (l : Linear ℝ) (hl : Dense.Spec.LltContract l.llt)
    (hc : Dense.Spec.LltComplete l.llt) (hqr : l.useQr = false) (P : Program ℝ) (hP : VectorProgram P)
    (cfg : SolveLoop.Config ℝ) (hmode : cfg.mode = 0) (hmu : 0 ≤ 1 / 10 ^ 15 + cfg.maximumMu)
    (hsteps : 0 < cfg.finalSteps) (hmax : 0 < cfg.maxIter) (htol : cfg.finalTol ≤ 1)
    (hall : cfg.maxIter ≤ cfg.finalSteps + 2)
    (hq : P.quadratic = false ∨ (cfg.lineSearch = true ∧ cfg.rescaling = false)) (status : SolveLoop.Status)
    (c : SolveLoop.Oracle ℝ) :
    ∃ r st, solve v l P cfg status c = .ok r ∧ r.last = some st ∧
      (r.res.ret = true → ∃ k kMax stats bs cs z, r.res.final = some (k, kMax) ∧ r.res.prog.stats = some stats ∧
        stats.bScale = some bs ∧ stats.cScale = some cs ∧ 0 < k ∧ 0 < bs ∧ 0 < cs ∧ r.array = some z ∧
        Gap.Spec.Feasible P.es z ∧ ∀ x, Gap.Spec.Feasible P.es x →
          value P z ≤ value P x + (rank P.es - st.normsqrd) / (k ^ 2 * bs * cs)) := by
  obtain ⟨r, st, h1, h2, -, h3⟩ := C75_solve_partial v hv he hs l hl hc hqr P hP cfg hmode hmu hsteps hmax hq status c
  refine ⟨r, st, h1, h2, fun hret => ?_⟩
  obtain ⟨k, kMax, stats, bs, cs, z, a1, a2, a3, a4, a5, a6, a7, a8, a9⟩ := h3 hret
  obtain ⟨st', h4, h5⟩ := short_direction h1 (by rw [a1]; simp) hret hsteps hall
  rw [h2, Option.some.injEq] at h4
  subst h4
  exact ⟨k, kMax, stats, bs, cs, z, a1, a2, a3, a4, a5, a6, a7, a8, a9 ((le_abs_self _).trans (h5.trans htol))⟩

/-- Whatever the composed solve returns is returned by the control flow of `Model/Solve` for some answers of the
numerical part, so that all that is proved about the latter holds for the former.  The answers of the line search,
of the divergence bound and of the KKT error are the given ones. -/
theorem C75_refines {R : Type} [Field R] [LinearOrder R] (v : Env R) (l : Linear R) (P : Program R)
    (p : SolveLoop.Prog R) (hpq : p.quadratic = P.quadratic) (hpn : p.constraints = P.es.length)
    (cfg : SolveLoop.Config R) (c : SolveLoop.Oracle R) (r : Result R) (h : solveAt v l P p cfg c = .ok r) :
    ∃ o : SolveLoop.Oracle R, o.lineSearch = c.lineSearch ∧ o.divergence = c.divergence ∧ o.kkt = c.kkt ∧
      SolveLoop.solve v.sqrt p cfg o = .ok r.res := by
  unfold solveAt at h
  simp only at h
  by_cases h1 : P.quadratic = false ∨ (cfg.lineSearch = true ∧ cfg.rescaling = false)
  swap
  · rw [if_pos h1, Outcome.ok.injEq] at h
    subst h
    refine ⟨c, rfl, rfl, rfl, ?_⟩
    unfold SolveLoop.solve
    rw [hpq, if_pos h1]
  rw [if_neg (not_not.2 h1)] at h
  have hc : (SolveLoop.clearStatus p).constraints = P.es.length := hpn
  by_cases h2 : P.es.length = 0
  · rw [if_pos h2, Outcome.ok.injEq] at h
    subst h
    refine ⟨c, rfl, rfl, rfl, ?_⟩
    unfold SolveLoop.solve
    rw [hpq, if_neg (not_not.2 h1)]
    simp only [hc, if_pos h2]
  rw [if_neg h2] at h
  by_cases h0 : (SolveLoop.clearStatus p).initialized = false ∧ cfg.mode ≠ 0
  · rw [if_pos h0] at h
    cases h
  rw [if_neg h0] at h
  simp only [SolveLoop.bind_eq_ok] at h
  obtain ⟨kkt, -, h3⟩ := h
  have hq : (SolveLoop.initProgram (SolveLoop.clearStatus p) cfg).quadratic = P.quadratic := by
    unfold SolveLoop.initProgram
    split_ifs <;> exact hpq
  cases hst : (SolveLoop.initProgram (SolveLoop.clearStatus p) cfg).stats with
  | none => rw [hst] at h3; cases h3
  | some stats =>
    rw [hst] at h3
    simp only [SolveLoop.bind_eq_ok] at h3
    obtain ⟨⟨d, q⟩, h3, h4⟩ := h3
    obtain ⟨o, e1, e2, e3, h5⟩ := loop_refines _ _ _ _ h3
    have h6 := h5 o ⟨fun _ _ => rfl, fun _ _ => rfl, fun _ _ => rfl, fun _ _ => rfl, fun _ _ => rfl, fun _ _ => rfl,
      fun _ _ => rfl, fun _ => ⟨rfl, rfl⟩⟩
    refine ⟨o, e1, e2, e3, ?_⟩
    unfold SolveLoop.solve
    rw [hpq, if_neg (not_not.2 h1)]
    simp only [hc, if_neg h2, hst, hq]
    simp only at h6
    rw [h6]
    simp only [Outcome.bind_ok]
    cases d with
    | fail =>
      rw [Outcome.ok.injEq] at h4
      subst h4
      simp only [hq]
      rfl
    | demand =>
      rw [Outcome.ok.injEq] at h4
      subst h4
      simp only [hq]
      rfl
    | brk =>
      simp only [SolveLoop.bind_eq_ok, Outcome.ok.injEq] at h4
      obtain ⟨res, h7, es, -, rfl⟩ := h4
      exact h7
    | next =>
      simp only [SolveLoop.bind_eq_ok, Outcome.ok.injEq] at h4
      obtain ⟨res, h7, es, -, rfl⟩ := h4
      exact h7

/-! ### An example -/

/-- Minimise `y₁² / 2 - y₀ - y₁` subject to `y₀ ≤ 1`, `y₁ ≤ 1` and `‖y‖ ≤ 2`, with arbitrary workspaces. -/
noncomputable def exProgram (w : Linear.Ws ℝ) (w' : Soc.Ws ℝ) : Program ℝ :=
  ⟨2, fun _ => -1,
   [⟨[0, 1], .linear ⟨2, 2, fun i j => if i = j then 1 else 0, fun _ => 1⟩ w⟩, ⟨[1], .cost 1 fun _ _ => 1⟩,
    ⟨[0, 1], .soc (Soc.ofMatrices 2 2 (fun i j => if i = j + 1 then 1 else 0) fun i => if i = 0 then 2 else 0) w'⟩],
   [[], [], []], [2, 1, 2].map fun n => ⟨n, fun _ _ => 0, fun _ => 0, fun _ => 0, 0, 0⟩, true⟩

theorem exProgram_good (w : Linear.Ws ℝ) (w' : Soc.Ws ℝ) : VectorProgram (exProgram w w') := by
  refine ⟨?_, ⟨_, rfl, by simp⟩, rfl, by simp [exProgram], by simp [Sized, exProgram], ?_, ?_, ?_, ?_⟩
  · intro e he
    simp only [exProgram, List.mem_cons, List.not_mem_nil, or_false] at he
    rcases he with rfl | rfl | rfl
    · exact ⟨by simp, by simp [exProgram], rfl, two_pos⟩
    · refine ⟨by simp, by simp [exProgram], rfl, fun _ _ _ _ => rfl, fun x => ?_⟩
      simpa using mul_self_nonneg (x 0)
    · exact ⟨by simp, by simp [exProgram], rfl, rfl, rfl⟩
  · intro u hu
    refine ⟨_, List.mem_cons_self, ?_⟩
    have : u < 2 := hu
    simp
    omega
  · intro k hk
    obtain ⟨k', hk', hn⟩ : ∃ k, Sup.kktInit [[0, 1], [1], [0, 1]] [[], [], []] = .ok k ∧ Sup.Spec.NoShift k :=
      ⟨_, rfl, Sup.noShift_of_bounded (n := 3) (by decide +kernel) (by decide +kernel)⟩
    have : Outcome.ok k = Outcome.ok k' := hk.symm.trans hk'
    rw [Outcome.ok.injEq] at this
    exact this ▸ hn
  · rintro z ⟨u, hu, hz⟩
    refine ⟨_, List.mem_cons_self, fun h => hz ?_⟩
    have : u = 0 ∨ u = 1 := by
      have : u < 2 := hu
      omega
    rcases this with rfl | rfl
    · have := h 0 (by simp)
      simpa [Finset.sum_range_succ] using this
    · have := h 1 (by simp)
      simpa [Finset.sum_range_succ] using this
  · intro _ _ _ _ _
    rfl

/-- The hypotheses of `C75_solve_partial` and `C75_refines`, with the default options
(`/repo/conex/cone_program.h` 17-38) but for the line search and the rescaling, which a quadratic cost demands. -/
example (w : Linear.Ws ℝ) (w' : Soc.Ws ℝ) (status : SolveLoop.Status) (c : SolveLoop.Oracle ℝ) :
    ∃ r st, solve Gap.exEnv ⟨false, 1, Sup.realLlt, fun _ _ b => b, fun _ => 0⟩ (exProgram w w')
      ⟨false, 0, 1000, 10 ^ 4, true, 5, 1 / 100, 0, 0, 2, 25, 10 ^ 5, 10 ^ 10, false⟩ status c = .ok r ∧ r.last = some st ∧
      ∃ o, SolveLoop.solve Real.sqrt ⟨true, 3, false, none, status⟩
        ⟨false, 0, 1000, 10 ^ 4, true, 5, 1 / 100, 0, 0, 2, 25, 10 ^ 5, 10 ^ 10, false⟩ o = .ok r.res := by
  obtain ⟨r, st, h1, h2, -, -⟩ := C75_solve_partial Gap.exEnv Gap.exEnv_sqrt Real.exp_pos Iteration.ex_solves
    ⟨false, 1, Sup.realLlt, fun _ _ b => b, fun _ => 0⟩ Sup.realLlt_contract Sup.realLlt_complete rfl (exProgram w w')
    (exProgram_good w w') ⟨false, 0, 1000, 10 ^ 4, true, 5, 1 / 100, 0, 0, 2, 25, 10 ^ 5, 10 ^ 10, false⟩ rfl (by norm_num)
    (by norm_num) (by norm_num) (Or.inr ⟨rfl, rfl⟩) status c
  obtain ⟨o, -, -, -, h3⟩ := C75_refines _ _ _ _ rfl rfl _ _ _ h1
  exact ⟨r, st, h1, h2, o, h3⟩

/-- The hypotheses of `C75_centered`: the options above with 23 final centering steps. -/
example (w : Linear.Ws ℝ) (w' : Soc.Ws ℝ) (status : SolveLoop.Status) (c : SolveLoop.Oracle ℝ) :
    ∃ r, solve Gap.exEnv ⟨false, 1, Sup.realLlt, fun _ _ b => b, fun _ => 0⟩ (exProgram w w')
      ⟨false, 0, 1000, 10 ^ 4, true, 23, 1 / 100, 0, 0, 2, 25, 10 ^ 5, 10 ^ 10, false⟩ status c = .ok r ∧
      (r.res.ret = true → ∃ z, r.array = some z ∧ z 0 ≤ 1 ∧ z 1 ≤ 1) := by
  obtain ⟨r, st, h1, -, h2⟩ := C75_centered Gap.exEnv Gap.exEnv_sqrt Real.exp_pos Iteration.ex_solves
    ⟨false, 1, Sup.realLlt, fun _ _ b => b, fun _ => 0⟩ Sup.realLlt_contract Sup.realLlt_complete rfl (exProgram w w')
    (exProgram_good w w') ⟨false, 0, 1000, 10 ^ 4, true, 23, 1 / 100, 0, 0, 2, 25, 10 ^ 5, 10 ^ 10, false⟩ rfl
    (by norm_num) (by norm_num) (by norm_num) (by norm_num) (by norm_num) (Or.inr ⟨rfl, rfl⟩) status c
  refine ⟨r, h1, fun h => ?_⟩
  obtain ⟨k, kMax, stats, bs, cs, z, -, -, -, -, -, -, -, h3, h4, -⟩ := h2 h
  have := h4 _ List.mem_cons_self
  refine ⟨z, h3, ?_, ?_⟩
  · simpa [Finset.sum_range_succ] using this 0 (by norm_num)
  · simpa [Finset.sum_range_succ] using this 1 (by norm_num)

end Verif.Whole
