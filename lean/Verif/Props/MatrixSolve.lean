import Verif.Lemmas.MatrixSolve

/-!
# C96: solving semidefinite programs from a start near the central path

The composed model of `Solve` without line search for programs with real, complex and quaternion linear matrix inequalities,
second-order cones, quadratic cones and linear inequalities.  The eigenvalues that `GetWeightedSlackEigenvalues` returns for
a matrix inequality are those of a small tridiagonal matrix and lie between the smallest and the largest one; the trace and
the squared norm are exact.  This suffices: if `divergence_upper_bound` is small and the identity is near the central
point of some barrier parameter, `Solve` reports success after a bounded number of iterations, and the array holds a feasible
point that is optimal up to the gap of the largest barrier parameter.
-/

namespace Verif.MatrixCentering

open Matrix Finset Verif.Dual Whole Whole.Spec Iteration.Spec Spec

/-- The divergence data: for every barrier parameter `k`, the squared norm of the Newton direction that an iteration
reports is `k² frob - 2 k trace + rank`, where `frob` and `trace` are the data from which `MuFromDivergence` chooses the next
parameter; hence it is known before the parameter is chosen. -/
theorem C96_data (v : Env ℝ) (hv : ∀ x, 0 ≤ x → SolveLoop.Spec.SqrtAt v.sqrt x) (hexp : v.exp = Real.exp)
    (ht : Lmi.Spec.TriEigenvalues v.tri) (hst : Starts v) (p : Iteration.Setup ℝ) (duals : List (List Nat))
    (x : Iteration.State ℝ) (hr : Ready p duals x) (hc : NoCosts x.es) (S : Search ℝ) (f : Iteration.Factored ℝ)
    (solver : Sup.Solver ℝ) (hf : Iteration.factorize v p x = .ok f) (hsol : f.solver = some solver) :
    ∃ t : Divergence.Slack ℝ, divergenceMu v S p x.es f.r solver = .ok (Divergence.muFromDivergence v.sqrt S.factor t) ∧
      t.rank = rank x.es ∧ ∀ k st x', Iteration.iterate v p k x = .ok (some (st, x')) →
        st.normsqrd = k ^ 2 * t.frob - 2 * k * t.trace + t.rank := by
  obtain ⟨t, h1, h2, h3, -⟩ := divergence_gap (S := S) hv hexp ht hst hr hc hf hsol
  refine ⟨t, h1, h2, fun k st x' h => ?_⟩
  rw [h3 k st x' h, Divergence.gap]
  ring

/-- The norm that an iteration reports for a short direction, although the Lanczos method may find a small part of the
spectrum only, is at most the root of the sum of squares. -/
theorem C96_norm (v : Env ℝ) (hv : ∀ x, 0 ≤ x → SolveLoop.Spec.SqrtAt v.sqrt x) (hexp : v.exp = Real.exp)
    (ht : Lmi.Spec.TriEigenvalues v.tri) (hst : Starts v) (p : Iteration.Setup ℝ) (duals : List (List Nat))
    (x x' : Iteration.State ℝ) (hr : Ready p duals x) (hn : 1 ≤ rank x.es) (k : ℝ) (st : Iteration.Step ℝ)
    (h : Iteration.iterate v p k x = .ok (some (st, x'))) (hb : st.normsqrd < 1) :
    0 ≤ st.normsqrd ∧ st.norm ^ 2 ≤ st.normsqrd :=
  norm_le hv hexp ht hst hr hn h hb

/-- Progress near the central path: the parameter that is chosen is at least `1 + τ` times the current one, where
`16 τ² ≤ divergence_upper_bound`, and for it and all parameters between, the direction is short. -/
theorem C96_progress (v : Env ℝ) (hv : ∀ x, 0 ≤ x → SolveLoop.Spec.SqrtAt v.sqrt x) (hexp : v.exp = Real.exp)
    (ht : Lmi.Spec.TriEigenvalues v.tri) (hst : Starts v) (p : Iteration.Setup ℝ) (duals : List (List Nat))
    (x x' : Iteration.State ℝ) (hr : Ready p duals x) (hc : NoCosts x.es) (hn : 1 ≤ rank x.es) (S : Search ℝ)
    (hS : 0 < S.factor) (hB : S.factor * rank x.es ≤ 1 / 32) (τ : ℝ) (hτ : 0 ≤ τ) (hτS : 16 * τ ^ 2 ≤ S.factor)
    (f : Iteration.Factored ℝ) (solver : Sup.Solver ℝ) (hf : Iteration.factorize v p x = .ok f)
    (hsol : f.solver = some solver) (k : ℝ) (hk : 1 / 24000 ≤ k) (st : Iteration.Step ℝ)
    (h : Iteration.iterate v p k x = .ok (some (st, x'))) (hl : st.normsqrd ≤ 2 * (S.factor * rank x.es) ^ 2) :
    ∃ d, divergenceMu v S p x.es f.r solver = .ok d ∧ (1 + τ) * k ≤ d ∧
      ∀ k', k ≤ k' → k' ≤ d → ∀ st' x', Iteration.iterate v p k' x = .ok (some (st', x')) →
        st'.normsqrd ≤ S.factor * rank x.es :=
  divergence_grow hv hexp ht hst hr hc hn hS hB hτ hτS hf hsol hk h hl

/-- Convergence.  For the parameter `k₀`, the first direction from the identity is short.  `divergence_upper_bound` is small
enough for the rank and `maximum_mu` is not huge, `F` final centering steps suffice, and after `J` increases of the barrier
parameter by the factor `1 + τ` the largest one is reached, where `16 τ² ≤ divergence_upper_bound`. -/
theorem C96_converges (v : Env ℝ) (hv : ∀ x, 0 ≤ x → SolveLoop.Spec.SqrtAt v.sqrt x) (hexp : v.exp = Real.exp)
    (ht : Lmi.Spec.TriEigenvalues v.tri) (hs : ∀ n, MatrixExp.Spec.Solves (v.solve n)) (hst : Starts v)
    (l : Whole.Linear ℝ) (hl : Dense.Spec.LltContract l.llt)
    (hc : Dense.Spec.LltComplete l.llt) (hqr : l.useQr = false) (P : Program ℝ) (hP : ConeProgram P)
    (hcost : NoCosts P.es) (hquad : P.quadratic = false) (hrank : 1 ≤ rank P.es)
    (S : Search ℝ) (hS : 0 < S.factor) (hsmall : S.factor * rank P.es ≤ 1 / 32)
    (cfg : SolveLoop.Config ℝ) (hmode : cfg.mode = 0) (hline : cfg.lineSearch = false) (hplain : cfg.rescaling = false)
    (hmu : 0 < 1 / 10 ^ 15 + cfg.maximumMu) (hlow : 1 / 24000 ≤ SolveLoop.kMin v.sqrt cfg)
    (hkkt : 0 ≤ cfg.kktTol) (htol : 0 ≤ cfg.finalTol) (hthr : 1 / cfg.invSqrtMuMax ^ 2 ≤ cfg.infeasThreshold)
    (hpos : 0 < cfg.initCold) (F : Nat) (hfine : 1 / 2 * (1 / 2) ^ 2 ^ F ≤ cfg.finalTol ^ 2) (hF : (F : Int) < cfg.finalSteps)
    (k₀ : ℝ) (hk₀ : SolveLoop.kMin v.sqrt cfg ≤ k₀) (hk₀' : k₀ ≤ cfg.invSqrtMuMax)
    (hfirst : ∀ kkt st x', Sup.kktInit (P.es.map Entry.vars) P.duals = .ok kkt →
      Iteration.iterate v (setupOf l P kkt) k₀ ⟨startEs P, P.sys, l.mat⟩ = .ok (some (st, x')) →
      st.normsqrd ≤ 2 * (S.factor * rank P.es) ^ 2)
    (τ : ℝ) (hτ : 0 ≤ τ) (hτS : 16 * τ ^ 2 ≤ S.factor)
    (J : Nat) (hJ : cfg.invSqrtMuMax ≤ (1 + τ) ^ J * SolveLoop.kMin v.sqrt cfg)
    (hiter : cfg.initCold + J ≤ cfg.maxIter - cfg.finalSteps) (status : SolveLoop.Status) :
    ∃ r z, Whole.solveSearch v l S P cfg status = .ok r ∧ r.res.ret = true ∧
      r.res.final = some (cfg.invSqrtMuMax, cfg.invSqrtMuMax) ∧ r.array = some z ∧ Gap.Spec.Feasible P.es z ∧
      ∀ z', Gap.Spec.Feasible P.es z' → value P z ≤ value P z' + rank P.es / cfg.invSqrtMuMax ^ 2 := by
  have hr1 : (1 : ℝ) ≤ rank P.es := by exact_mod_cast hrank
  have hB : 0 < S.factor * rank P.es := mul_pos hS (by linarith)
  exact matrices_converge ht hs hst hl hc hqr hP hcost hquad hrank hS hsmall
    ⟨hv, hexp, hmode, Or.inr rfl, hplain, hkkt, Whole.kMin_pos hv hmu, hk₀.trans hk₀', htol, hfine, by nlinarith, hF⟩ hline hlow hτ hτS
    hthr hpos hk₀ hk₀' hfirst hJ hiter status

/-- Every semidefinite program for which the first direction from the identity is short, for some barrier parameter, can be
solved to any accuracy: there are options for which `Solve` reports success and the array holds a feasible point whose value
is optimal up to `ε`, whatever the status block and the options of the line search are. -/
theorem C96_solvable (v : Env ℝ) (hv : ∀ x, 0 ≤ x → SolveLoop.Spec.SqrtAt v.sqrt x) (hexp : v.exp = Real.exp)
    (ht : Lmi.Spec.TriEigenvalues v.tri) (hs : ∀ n, MatrixExp.Spec.Solves (v.solve n)) (hst : Starts v)
    (l : Whole.Linear ℝ) (hl : Dense.Spec.LltContract l.llt)
    (hc : Dense.Spec.LltComplete l.llt) (hqr : l.useQr = false) (P : Program ℝ) (hP : ConeProgram P)
    (hcost : NoCosts P.es) (hquad : P.quadratic = false) (hrank : 1 ≤ rank P.es) (k₀ : ℝ) (hk₀ : 1 / 24000 ≤ k₀)
    (hfirst : ∀ kkt st x', Sup.kktInit (P.es.map Entry.vars) P.duals = .ok kkt →
      Iteration.iterate v (setupOf l P kkt) k₀ ⟨startEs P, P.sys, l.mat⟩ = .ok (some (st, x')) → st.normsqrd ≤ 1 / 512)
    (ε : ℝ) (hε : 0 < ε) :
    ∃ (cfg : SolveLoop.Config ℝ) (factor : ℝ), cfg.mode = 0 ∧ cfg.lineSearch = false ∧ 0 < factor ∧
      ∀ (dmax big : ℝ) (status : SolveLoop.Status),
        ∃ r z, Whole.solveSearch v l ⟨dmax, big, factor⟩ P cfg status = .ok r ∧ r.res.ret = true ∧ r.array = some z ∧
          Gap.Spec.Feasible P.es z ∧ ∀ z', Gap.Spec.Feasible P.es z' → value P z ≤ value P z' + ε := by
  have hr1 : (1 : ℝ) ≤ rank P.es := by exact_mod_cast hrank
  have hk0 : 0 < k₀ := lt_of_lt_of_le (by norm_num) hk₀
  set K : ℝ := 1 + k₀ + rank P.es / ε with hK
  have hd0 : (0 : ℝ) ≤ rank P.es / ε := by positivity
  have hK1 : 1 ≤ K := by linarith
  set φ : ℝ := 1 / (32 * rank P.es) with hφ
  have hφ0 : 0 < φ := by positivity
  have hφn : φ * rank P.es = 1 / 32 := by
    rw [hφ]
    field_simp
  have hφ1 : φ ≤ 1 / 32 := by nlinarith
  obtain ⟨F, hF⟩ := exists_pow_lt_of_lt_one (show 0 < (1 / 512 : ℝ) by norm_num)
    (show (1 / 2 : ℝ) < 1 by norm_num)
  have hF' : (1 / 2 : ℝ) * (1 / 2) ^ 2 ^ F ≤ 1 / 512 := by
    have h1 : (1 / 2 : ℝ) ^ 2 ^ F ≤ (1 / 2) ^ F :=
      pow_le_pow_of_le_one (by norm_num) (by norm_num) Nat.lt_two_pow_self.le
    have h2 : (0 : ℝ) ≤ (1 / 2) ^ 2 ^ F := by positivity
    linarith
  obtain ⟨J, hJ⟩ := pow_unbounded_of_one_lt (K / k₀) (lt_add_of_pos_right 1 hφ0)
  set cfg : SolveLoop.Config ℝ := ⟨true, 0, K, 1 / k₀ ^ 2 - 1 / 10 ^ 15, false, F + 1, 1 / 10, 0, 1, 2, 1 + J + F + 1,
    1 / K ^ 2, 1, false⟩ with hcfg
  have hmin : SolveLoop.kMin v.sqrt cfg = k₀ := by
    have e : SolveLoop.kMin v.sqrt cfg = v.sqrt (k₀ ^ 2) := by
      unfold SolveLoop.kMin
      rw [hcfg]
      norm_num
    obtain ⟨h1, h2⟩ := hv (k₀ ^ 2) (sq_nonneg _)
    rw [e]
    nlinarith
  refine ⟨cfg, φ, rfl, rfl, hφ0, fun dmax big status => ?_⟩
  obtain ⟨r, z, h1, h2, -, h3, h4, h5⟩ := C96_converges v hv hexp ht hs hst l hl hc hqr P hP hcost hquad hrank ⟨dmax, big, φ⟩ hφ0
    hφn.le cfg rfl rfl rfl (by
      show 0 < 1 / 10 ^ 15 + (1 / k₀ ^ 2 - 1 / 10 ^ 15)
      rw [add_sub_cancel]
      positivity) (by rw [hmin]; exact hk₀) (by norm_num [hcfg])
    (by norm_num [hcfg]) le_rfl (by norm_num [hcfg]) F (hF'.trans (by norm_num [hcfg]))
    (by show (F : Int) < F + 1
        omega) k₀ hmin.le (by
      show k₀ ≤ K
      linarith)
    (fun kkt st x' g1 g2 => (hfirst kkt st x' g1 g2).trans (by
      show (1 / 512 : ℝ) ≤ 2 * (φ * rank P.es) ^ 2
      rw [hφn]
      norm_num)) φ hφ0.le (by
      show 16 * φ ^ 2 ≤ φ
      nlinarith) J (by
      rw [hmin]
      exact ((div_lt_iff₀ hk0).1 hJ).le)
    (by show (1 : Int) + J ≤ 1 + J + F + 1 - (F + 1)
        omega) status
  refine ⟨r, z, h1, h2, h3, h4, fun z' hz' => (h5 z' hz').trans (add_le_add le_rfl ?_)⟩
  show (rank P.es : ℝ) / K ^ 2 ≤ ε
  rw [div_le_iff₀ (by positivity)]
  have h6 : (rank P.es : ℝ) / ε ≤ K ^ 2 := by nlinarith
  rw [div_le_iff₀ hε] at h6
  linarith

/-! ### Examples -/

/-- An environment with exact eigenvalues of tridiagonal matrices and start vectors of ones. -/
noncomputable def exMatEnv (tri : List ℝ → List ℝ → List ℝ) : Env ℝ :=
  { Gap.exEnv with tri := tri, start := fun _ _ _ => fun _ _ => 1 }

theorem exMatEnv_starts (tri : List ℝ → List ℝ → List ℝ) : Starts (exMatEnv tri) := by
  intro d m hd hm h
  have := congrFun (congrFun (congrFun h ⟨0, hd⟩) ⟨0, hm⟩) 0
  simp [exMatEnv] at this

theorem exMatrices_costs (t : ℝ) (w : Lmi.Ws 2 ℝ) (w' : HermLmi.Ws 2 2 ℝ) : NoCosts (exMatrices t w w').es := by
  intro e he n Q hx
  simp only [exMatrices, List.mem_cons, List.not_mem_nil, or_false] at he
  rcases he with rfl | rfl <;> cases hx

/-- The first direction for the cost `-y/16`. -/
theorem exMatrices_near (tri : List ℝ → List ℝ → List ℝ) (ht : Lmi.Spec.TriEigenvalues tri) (w : Lmi.Ws 2 ℝ) (w' : HermLmi.Ws 2 2 ℝ)
    (mat : Sup.Store ℝ) (kkt : Sup.Kkt) (st : Iteration.Step ℝ) (x' : Iteration.State ℝ)
    (hk : Sup.kktInit ((exMatrices (1 / 16) w w').es.map Entry.vars) (exMatrices (1 / 16) w w').duals = .ok kkt)
    (h : Iteration.iterate (exMatEnv tri) (setupOf ⟨false, 1, Sup.realLlt, fun _ _ b => b, mat⟩ (exMatrices (1 / 16) w w') kkt) 1
      ⟨startEs (exMatrices (1 / 16) w w'), (exMatrices (1 / 16) w w').sys, mat⟩ = .ok (some (st, x'))) :
    st.normsqrd ≤ 1 / 512 := by
  obtain ⟨-, kkt', hk', hr⟩ := start_ready (l := ⟨false, 1, Sup.realLlt, fun _ _ b => b, mat⟩) (exMatrices_good (1 / 16) w w')
    Sup.realLlt_contract Sup.realLlt_complete rfl
  rw [hk, Outcome.ok.injEq] at hk'
  subst hk'
  rw [exMatrices_first (exMatEnv tri) Gap.exEnv_sqrt rfl ht (1 / 16) w w' _ rfl (by
    norm_num [Whole.Program.b, exMatrices, setupOf]) rfl rfl _ _ rfl _ hr _ h]
  norm_num

/-- `C96_solvable` for minimising `-y/16` such that `[1 y; y 1]` and `[1 iy; -iy 1]` are positive semidefinite. -/
example (w : Lmi.Ws 2 ℝ) (w' : HermLmi.Ws 2 2 ℝ) (mat : Sup.Store ℝ) (ε : ℝ) (hε : 0 < ε) :
    ∃ (tri : List ℝ → List ℝ → List ℝ) (cfg : SolveLoop.Config ℝ) (factor : ℝ), Lmi.Spec.TriEigenvalues tri ∧
      cfg.mode = 0 ∧ cfg.lineSearch = false ∧ 0 < factor ∧ ∀ (dmax big : ℝ) (status : SolveLoop.Status),
        ∃ r z, Whole.solveSearch (exMatEnv tri) ⟨false, 1, Sup.realLlt, fun _ _ b => b, mat⟩ ⟨dmax, big, factor⟩
          (exMatrices (1 / 16) w w') cfg status = .ok r ∧ r.res.ret = true ∧ r.array = some z ∧
          Gap.Spec.Feasible (exMatrices (1 / 16) w w').es z ∧ ∀ z', Gap.Spec.Feasible (exMatrices (1 / 16) w w').es z' →
            value (exMatrices (1 / 16) w w') z ≤ value (exMatrices (1 / 16) w w') z' + ε := by
  obtain ⟨tri, ht⟩ := exists_tri
  obtain ⟨cfg, factor, h1, h2, h3, h4⟩ := C96_solvable (exMatEnv tri) Gap.exEnv_sqrt rfl ht Iteration.ex_solves (exMatEnv_starts tri)
    ⟨false, 1, Sup.realLlt, fun _ _ b => b, mat⟩ Sup.realLlt_contract Sup.realLlt_complete rfl _ (exMatrices_good (1 / 16) w w')
    (exMatrices_costs _ w w') rfl (by simp [Dual.rank, exMatrices, Item.rank]) 1 (by norm_num)
    (fun kkt st x' g1 g2 => exMatrices_near tri ht w w' mat kkt st x' g1 g2) ε hε
  exact ⟨tri, cfg, factor, ht, h1, h2, h3, h4⟩

/-- The hypotheses of `C96_converges`: rank four, `divergence_upper_bound` 1/128, `inv_sqrt_mu_max` 2, 32 increases. -/
example (w : Lmi.Ws 2 ℝ) (w' : HermLmi.Ws 2 2 ℝ) (mat : Sup.Store ℝ) (status : SolveLoop.Status) :
    ∃ tri r z, Whole.solveSearch (exMatEnv tri) ⟨false, 1, Sup.realLlt, fun _ _ b => b, mat⟩ ⟨1, 10, 1 / 128⟩
      (exMatrices (1 / 16) w w') ⟨true, 0, 2, 1 - 1 / 10 ^ 15, false, 5, 1 / 10, 0, 1, 2, 40, 1 / 4, 1, false⟩ status = .ok r ∧
      r.res.ret = true ∧ r.array = some z := by
  obtain ⟨tri, ht⟩ := exists_tri
  have hmin : SolveLoop.kMin (exMatEnv tri).sqrt
      (⟨true, 0, 2, 1 - 1 / 10 ^ 15, false, 5, 1 / 10, 0, 1, 2, 40, 1 / 4, 1, false⟩ : SolveLoop.Config ℝ) = 1 := by
    have e : SolveLoop.kMin (exMatEnv tri).sqrt
        (⟨true, 0, 2, 1 - 1 / 10 ^ 15, false, 5, 1 / 10, 0, 1, 2, 40, 1 / 4, 1, false⟩ : SolveLoop.Config ℝ) =
          Real.sqrt 1 := by
      unfold SolveLoop.kMin
      norm_num [Gap.exEnv, exMatEnv]
    rw [e, Real.sqrt_one]
  have hrank : rank (exMatrices (1 / 16) w w').es = 4 := by simp [Dual.rank, exMatrices, Item.rank]
  obtain ⟨r, z, h1, h2, -, h3, -⟩ := C96_converges (exMatEnv tri) Gap.exEnv_sqrt rfl ht Iteration.ex_solves (exMatEnv_starts tri)
    ⟨false, 1, Sup.realLlt, fun _ _ b => b, mat⟩ Sup.realLlt_contract Sup.realLlt_complete rfl _ (exMatrices_good (1 / 16) w w')
    (exMatrices_costs _ w w') rfl (by rw [hrank]; norm_num) ⟨1, 10, 1 / 128⟩ (by norm_num) (by rw [hrank]; norm_num)
    ⟨true, 0, 2, 1 - 1 / 10 ^ 15, false, 5, 1 / 10, 0, 1, 2, 40, 1 / 4, 1, false⟩ rfl rfl rfl (by norm_num)
    (by rw [hmin]; norm_num) (by norm_num) (by norm_num) (by norm_num) (by norm_num) 3 (by norm_num) (by norm_num) 1 hmin.le
    (by norm_num) (fun kkt st x' g1 g2 => (exMatrices_near tri ht w w' mat kkt st x' g1 g2).trans (by rw [hrank]; norm_num))
    (1 / 46) (by norm_num) (by norm_num) 34 (by rw [hmin]; norm_num) (by norm_num) status
  exact ⟨tri, r, z, h1, h2, h3⟩

/-- The hypotheses of `C96_data`, `C96_norm` and `C96_progress`, at the start. -/
example (w : Lmi.Ws 2 ℝ) (w' : HermLmi.Ws 2 2 ℝ) (mat : Sup.Store ℝ) : ∃ (v : Env ℝ) (p : Iteration.Setup ℝ)
    (x x' : Iteration.State ℝ) (st : Iteration.Step ℝ) (f : Iteration.Factored ℝ) (solver : Sup.Solver ℝ),
      Lmi.Spec.TriEigenvalues v.tri ∧ Starts v ∧ Ready p [[], []] x ∧ NoCosts x.es ∧ rank x.es = 4 ∧
      Iteration.factorize v p x = .ok f ∧ f.solver = some solver ∧ Iteration.iterate v p 1 x = .ok (some (st, x')) ∧
      st.normsqrd ≤ 2 * ((1 / 128 : ℝ) * rank x.es) ^ 2 := by
  obtain ⟨tri, ht⟩ := exists_tri
  obtain ⟨-, kkt, hk, hr⟩ := start_ready (l := ⟨false, 1, Sup.realLlt, fun _ _ b => b, mat⟩) (exMatrices_good (1 / 16) w w')
    Sup.realLlt_contract Sup.realLlt_complete rfl
  obtain ⟨st, x', h, -⟩ := Iteration.iterate_total (v := exMatEnv tri) Gap.exEnv_sqrt Real.exp_pos hr 1
  obtain ⟨f, solver, -, hf, hsol, -⟩ := factor_solves (v := exMatEnv tri) Gap.exEnv_sqrt hr
  have hrank : rank (startEs (exMatrices (1 / 16) w w')) = 4 := by
    rw [rank_start]
    simp [Dual.rank, exMatrices, Item.rank]
  refine ⟨exMatEnv tri, _, _, x', st, f, solver, ht, exMatEnv_starts tri, hr, ?_, hrank, hf, hsol, h, ?_⟩
  · intro e he n Q hx
    simp only [startEs, identity, exMatrices, List.map_cons, List.map_nil, List.mem_cons, List.not_mem_nil, or_false] at he
    rcases he with rfl | rfl <;> cases hx
  · refine (exMatrices_near tri ht w w' mat kkt st x' hk h).trans ?_
    rw [hrank]
    norm_num

end Verif.MatrixCentering
