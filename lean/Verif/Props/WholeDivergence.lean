import Verif.Props.WholeSearch

/-!
# C91: solving linear programs with the divergence

The composed model of `Solve` without line search, the default: the barrier parameter is chosen with
`ComputeMuFromDivergence`.  For linear inequalities `DivergenceUpperBound` bounds the distance of the scaling point from the
central point, and if `divergence_upper_bound` is small, `Solve` reports success after a bounded number of iterations, and
the array holds a feasible point that is optimal up to the gap of the largest barrier parameter.
-/

namespace Verif.Whole

open Finset Centering.Spec Whole.Spec Iteration.Spec
open Verif.Dual

/-- All constraints are linear inequalities. -/
def AllLinear (es : List (Entry ℝ)) : Prop := ∀ e ∈ es, ∃ o w, e.item = .linear o w

/-- The divergence bounds the distance.  The data that the function computes from its linear system and the weighted slacks
are such that, wherever the bound is finite, it is at least the distance of the scaling point from the central point, which
by C88 limits the number of centering iterations.  No condition on the size of the slacks is needed. -/
theorem C91_bound (v : Env ℝ) (hv : ∀ x, 0 ≤ x → SolveLoop.Spec.SqrtAt v.sqrt x) (p : Iteration.Setup ℝ)
    (duals : List (List Nat)) (x : Iteration.State ℝ) (hr : Ready p duals x) (hlin : AllLinear x.es)
    (S : Search ℝ) (f : Iteration.Factored ℝ) (solver : Sup.Solver ℝ) (hf : Iteration.factorize v p x = .ok f)
    (hsol : f.solver = some solver) :
    ∃ t, divergenceMu v S p x.es f.r solver = .ok (Divergence.muFromDivergence v.sqrt S.factor t) ∧
      ∀ k, Divergence.boundIsFinite k t = true →
        ∀ z, Central x.es p.N (fun u => k * p.bs * p.b u) (k * p.cs) z →
          distance x.es (k * p.cs) z ≤ Divergence.divergence k t := by
  obtain ⟨hp, hc⟩ := polyhedral_linear hlin
  have hs := Centering.shape_of hr hp
  have hw := Centering.weight_pos hr.good hp
  obtain ⟨y, t, h1, h2, h3, h6⟩ := divergence_any (S := S) hv hr hp hc hf hsol
  refine ⟨t, h2, fun k hk z hz => ?_⟩
  have hk' : Divergence.normInf k t < 1 := of_decide_eq_true hk
  unfold Divergence.divergence
  rw [le_div_iff₀ (by linarith), mul_comm]
  have h7 := distance_le hs (fun y u => gradients_none hp hc y u) hw h1 hz fun i hi r hr' => by
    obtain ⟨a, b⟩ := h6 i hi r hr'
    exact Divergence.abs_le_normInf a b k
  rw [h3]
  exact h7

/-- The parameter that is chosen.  If all weighted slacks are positive and below 30000, it is positive, and the distance of
the scaling point from its central point is at most `divergence_upper_bound` times the number of rows, unless no parameter
has this bound. -/
theorem C91_chosen (v : Env ℝ) (hv : ∀ x, 0 ≤ x → SolveLoop.Spec.SqrtAt v.sqrt x) (p : Iteration.Setup ℝ)
    (duals : List (List Nat)) (x : Iteration.State ℝ) (hr : Ready p duals x) (hlin : AllLinear x.es) (hn : 1 ≤ count x.es)
    (S : Search ℝ) (hS : 0 < S.factor) (f : Iteration.Factored ℝ) (solver : Sup.Solver ℝ)
    (hf : Iteration.factorize v p x = .ok f) (hsol : f.solver = some solver) (y : Nat → ℝ)
    (hy : solver.solveInPlace p.qr p.N (fun u => f.r.AQc u * p.cs - p.b u * p.bs) = .ok y)
    (hpos : ∀ i < x.es.length, ∀ r < (con (nth x.es i).item).n, 0 < weight (nth x.es i).item r * slack x.es p.cs y i r ∧
      weight (nth x.es i).item r * slack x.es p.cs y i r ≤ 30000) :
    ∃ k, divergenceMu v S p x.es f.r solver = .ok k ∧ 0 < k ∧
      ((∀ z, Central x.es p.N (fun u => k * p.bs * p.b u) (k * p.cs) z →
        distance x.es (k * p.cs) z ≤ S.factor * count x.es) ∨
      ∀ t, slackEntries v p.cs p.N y x.es ⟨0, 0, 30000, -30000, rank x.es⟩ = .ok t →
        ∀ k', Divergence.boundIsFinite k' t = true → Divergence.divergence k' t ≠ S.factor * count x.es) := by
  obtain ⟨hp, hc⟩ := polyhedral_linear hlin
  have hs := Centering.shape_of hr hp
  have hw := Centering.weight_pos hr.good hp
  obtain ⟨y', t, h0, h1, h2, h3, h4⟩ := divergence_data (S := S) hv hr hp hc hn hf hsol
  rw [hy, Outcome.ok.injEq] at h0
  subst h0
  have hb : ∀ i < x.es.length, ∀ r < (con (nth x.es i).item).n, |lam x.es p.cs y i r| ≤ 30000 := fun i hi r hr' => by
    obtain ⟨a, b⟩ := hpos i hi r hr'
    exact abs_le.2 ⟨by unfold lam; linarith, b⟩
  have hd := h4 hb
  have hall : ∀ a ∈ lamList p.cs y x.es, 0 < a := fun a ha => by
    obtain ⟨i, hi, r, hr', rfl⟩ := mem_lamList ha
    exact (hpos i hi r hr').1
  have hlen := lamList_length p.cs y x.es
  obtain ⟨g1, g2, g3⟩ := Divergence.C51_positive hv hd hall hS
  refine ⟨_, h3, g1, ?_⟩
  have hdiv : ∀ k, Divergence.divergence k t = Divergence.Spec.bound (lamList p.cs y x.es) k := by
    intro k
    unfold Divergence.divergence Divergence.Spec.bound
    rw [Divergence.distSq_eq hd, Divergence.normInf_eq hd]
  rcases g3 with g3 | ⟨g3, -⟩
  · refine Or.inl fun z hz => ?_
    have h7 := distance_le hs (fun y u => gradients_none hp hc y u) hw h1 hz fun i hi r hr' =>
      Divergence.le_dist (lamList_mem hi hr')
    rw [hlen] at g3
    rw [← g3]
    unfold Divergence.Spec.bound
    rw [le_div_iff₀ (by linarith), mul_comm]
    refine h7.trans (le_of_eq ?_)
    unfold Divergence.Spec.distSq
    rw [lamList_sum]
  · refine Or.inr fun t' ht' k' hk' => ?_
    rw [h2, Outcome.ok.injEq] at ht'
    subst ht'
    rw [hdiv, ← hlen]
    refine g3 k' ?_
    rw [← Divergence.normInf_eq hd]
    exact of_decide_eq_true hk'

/-- Equations and quadratic costs do not take part in the divergence: they leave the sums and the eigenvalues as they are. -/
theorem C91_neutral {R : Type} [Field R] [LinearOrder R] (v : Env R) (c : R) (len : Nat) (y : Nat → R) (x : Item R)
    (hx : (∃ o, x = .equality o) ∨ ∃ n Q, x = .cost n Q) (p : Divergence.Slack R) :
    ∃ t, itemSlack v c len y x = .ok t ∧ joinSlack p t = p := by
  rcases hx with ⟨o, rfl⟩ | ⟨n, Q, rfl⟩ <;> exact ⟨_, rfl, by simp [joinSlack]⟩

/-- A quadratic cost. -/
example (v : Env ℚ) : ∃ t, itemSlack v 1 1 (fun _ => 2) (.cost 1 fun _ _ => 3) = .ok t ∧
    joinSlack ⟨5, 3, 1, 2, 2⟩ t = ⟨5, 3, 1, 2, 2⟩ :=
  C91_neutral v 1 1 _ _ (Or.inr ⟨_, _, rfl⟩) _

/-- Convergence.  `y` and `x` are interior points of the program and of its dual; `μ` and `ν` are lower bounds for the
multipliers and the slacks there.  `divergence_upper_bound` is small enough for the number of rows and `maximum_mu` is not
huge, `F` final and `initCold` initial centering steps suffice, and after `J` increases of the barrier parameter by the
factor `1 + τ` the largest one is reached, where `16 τ² ≤ divergence_upper_bound`. -/
theorem C91_converges (v : Env ℝ) (hv : ∀ x, 0 ≤ x → SolveLoop.Spec.SqrtAt v.sqrt x) (hexp : v.exp = Real.exp)
    (hs : ∀ n, MatrixExp.Spec.Solves (v.solve n)) (l : Linear ℝ) (hl : Dense.Spec.LltContract l.llt)
    (hc : Dense.Spec.LltComplete l.llt) (hqr : l.useQr = false) (P : Program ℝ) (hP : VectorProgram P)
    (hlin : AllLinear P.es) (hquad : P.quadratic = false) (hrows : 1 ≤ count P.es)
    (y : Nat → ℝ) (x : Nat → Nat → ℝ) (hI : Interior P.es P.m P.b 1 y x y)
    (S : Search ℝ) (hS : 0 < S.factor) (hsmall : S.factor * count P.es ≤ 1 / 32)
    (cfg : SolveLoop.Config ℝ) (hmode : cfg.mode = 0) (hline : cfg.lineSearch = false) (hplain : cfg.rescaling = false)
    (hmu : 0 < 1 / 10 ^ 15 + cfg.maximumMu) (hlow : 1 / 24000 ≤ SolveLoop.kMin v.sqrt cfg)
    (hmax : SolveLoop.kMin v.sqrt cfg ≤ cfg.invSqrtMuMax)
    (hkkt : 0 ≤ cfg.kktTol) (htol : 0 ≤ cfg.finalTol) (htol' : cfg.finalTol ≤ 1)
    (hthr : 1 / cfg.invSqrtMuMax ^ 2 ≤ cfg.infeasThreshold)
    (F : Nat) (hfine : 1 / 2 * (1 / 2) ^ 2 ^ F ≤ cfg.finalTol ^ 2)
    (hclose : 1 / 2 * (1 / 2) ^ 2 ^ F ≤ 2 * (S.factor * count P.es) ^ 2) (hF : (F : Int) < cfg.finalSteps)
    (μ ν : ℝ) (hμ : 0 < μ) (hν : 0 < ν)
    (hx : ∀ i < P.es.length, ∀ r < (con (nth P.es i).item).n, μ ≤ SolveLoop.kMin v.sqrt cfg * x i r)
    (hy : ∀ i < P.es.length, ∀ r < (con (nth P.es i).item).n, ν ≤ SolveLoop.kMin v.sqrt cfg * slack P.es 1 y i r)
    (hinit : 40 * ((count P.es + cfg.invSqrtMuMax ^ 2 * product P.es 1 y x) * (1 / μ + 1 / ν) - 2 * count P.es) + 1 + F ≤
      cfg.initCold)
    (τ : ℝ) (hτ : 0 ≤ τ) (hτS : 16 * τ ^ 2 ≤ S.factor)
    (J : Nat) (hJ : cfg.invSqrtMuMax ≤ (1 + τ) ^ J * SolveLoop.kMin v.sqrt cfg)
    (hiter : cfg.initCold + J ≤ cfg.maxIter - cfg.finalSteps) (status : SolveLoop.Status) :
    ∃ r z, solveSearch v l S P cfg status = .ok r ∧ r.res.ret = true ∧
      r.res.final = some (cfg.invSqrtMuMax, cfg.invSqrtMuMax) ∧ r.array = some z ∧ Gap.Spec.Feasible P.es z ∧
      ∀ z', Gap.Spec.Feasible P.es z' → value P z ≤ value P z' + rank P.es / cfg.invSqrtMuMax ^ 2 := by
  have hmin := kMin_pos hv hmu
  obtain ⟨hp, -⟩ := polyhedral_linear hlin
  have hB : 0 < S.factor * count P.es := mul_pos hS (by linarith)
  have hcurv : curvature P.es P.m (fun u => y u - y u) = 0 := by
    unfold curvature
    simp
  exact polyhedral_converges hl hc hqr hP hp hI hs ⟨hv, hexp, hmode, Or.inr hquad, hplain, hkkt, hmin, hmax, htol, hfine,
    by nlinarith, hF⟩ hclose hrows hτ (fun kkt => by
      rw [hquad]
      exact divergence_grows hv hexp hs hS hsmall hrows hτ hτS hline hlow _ _ _) hmu htol' hthr hμ hν hx hy
    (by rw [hcurv]; simpa using hinit) hJ hiter status

/-- Every linear program with interior points can be solved to any accuracy without the line search: there are options for
which `Solve` reports success and the array holds a feasible point whose value is optimal up to `ε`, whatever the status
block and the options of the line search are. -/
theorem C91_solvable (v : Env ℝ) (hv : ∀ x, 0 ≤ x → SolveLoop.Spec.SqrtAt v.sqrt x) (hexp : v.exp = Real.exp)
    (hs : ∀ n, MatrixExp.Spec.Solves (v.solve n)) (l : Linear ℝ) (hl : Dense.Spec.LltContract l.llt)
    (hc : Dense.Spec.LltComplete l.llt) (hqr : l.useQr = false) (P : Program ℝ) (hP : VectorProgram P)
    (hlin : AllLinear P.es) (hquad : P.quadratic = false) (hrows : 1 ≤ count P.es)
    (hI : ∃ y x, Interior P.es P.m P.b 1 y x y) (ε : ℝ) (hε : 0 < ε) :
    ∃ (cfg : SolveLoop.Config ℝ) (factor : ℝ), cfg.mode = 0 ∧ cfg.lineSearch = false ∧ 0 < factor ∧
      ∀ (dmax big : ℝ) (status : SolveLoop.Status),
        ∃ r z, solveSearch v l ⟨dmax, big, factor⟩ P cfg status = .ok r ∧ r.res.ret = true ∧ r.array = some z ∧
          Gap.Spec.Feasible P.es z ∧ ∀ z', Gap.Spec.Feasible P.es z' → value P z ≤ value P z' + ε := by
  obtain ⟨y, x, hI⟩ := hI
  obtain ⟨μ, hμ, hx⟩ := lower_bound P.es.length (fun i => (con (nth P.es i).item).n) x hI.dual
  obtain ⟨ν, hν, hy⟩ := lower_bound P.es.length (fun i => (con (nth P.es i).item).n) (slack P.es 1 y) hI.primal
  have hrank : (0 : ℝ) ≤ rank P.es := Nat.cast_nonneg _
  set K : ℝ := 1 + rank P.es / ε with hK
  have hK1 : 1 ≤ K := by
    have : (0 : ℝ) ≤ rank P.es / ε := by positivity
    linarith
  have hn0 : 0 < count P.es := by linarith
  set φ : ℝ := 1 / (32 * count P.es) with hφ
  have hφ0 : 0 < φ := by positivity
  have hφn : φ * count P.es = 1 / 32 := by
    rw [hφ]
    field_simp
  have hφ1 : φ ≤ 1 / 32 := by nlinarith
  obtain ⟨F, hF⟩ := exists_pow_lt_of_lt_one (show 0 < (1 / 512 : ℝ) by norm_num)
    (show (1 / 2 : ℝ) < 1 by norm_num)
  have hF' : (1 / 2 : ℝ) * (1 / 2) ^ 2 ^ F ≤ 1 / 512 := by
    have h1 : (1 / 2 : ℝ) ^ 2 ^ F ≤ (1 / 2) ^ F :=
      pow_le_pow_of_le_one (by norm_num) (by norm_num) Nat.lt_two_pow_self.le
    have h2 : (0 : ℝ) ≤ (1 / 2) ^ 2 ^ F := by positivity
    linarith
  obtain ⟨J, hJ⟩ := pow_unbounded_of_one_lt K (lt_add_of_pos_right 1 hφ0)
  obtain ⟨I, hI'⟩ := exists_nat_ge (40 * ((count P.es + K ^ 2 * product P.es 1 y x) * (1 / μ + 1 / ν) -
    2 * count P.es) + 1 + F)
  set cfg : SolveLoop.Config ℝ := ⟨true, 0, K, 1 - 1 / 10 ^ 15, false, F + 1, 1 / 10, 0, I, 2, I + J + F + 1, 1 / K ^ 2, 1,
    false⟩ with hcfg
  have hmin : SolveLoop.kMin v.sqrt cfg = 1 := by
    have e : SolveLoop.kMin v.sqrt cfg = v.sqrt 1 := by
      unfold SolveLoop.kMin
      rw [hcfg]
      norm_num
    obtain ⟨h1, h2⟩ := hv 1 zero_le_one
    rw [e]
    nlinarith
  refine ⟨cfg, φ, rfl, rfl, hφ0, fun dmax big status => ?_⟩
  obtain ⟨r, z, h1, h2, -, h3, h4, h5⟩ := C91_converges v hv hexp hs l hl hc hqr P hP hlin hquad hrows y x hI ⟨dmax, big, φ⟩ hφ0
    hφn.le cfg rfl rfl rfl (by norm_num [hcfg]) (by rw [hmin]; norm_num) (by rw [hmin]; exact hK1) (by norm_num [hcfg])
    (by norm_num [hcfg]) (by norm_num [hcfg]) le_rfl F (hF'.trans (by norm_num [hcfg])) (hF'.trans (by
      show (1 / 512 : ℝ) ≤ 2 * (φ * count P.es) ^ 2
      rw [hφn]
      norm_num))
    (by show (F : Int) < F + 1
        omega) μ ν hμ hν (by rw [hmin]; simpa using hx) (by rw [hmin]; simpa using hy)
    (by simpa [hcfg] using hI') φ hφ0.le (by
      show 16 * φ ^ 2 ≤ φ
      nlinarith) J (by rw [hmin, mul_one]; exact hJ.le)
    (by show (I : Int) + J ≤ I + J + F + 1 - (F + 1)
        omega) status
  refine ⟨r, z, h1, h2, h3, h4, fun z' hz' => (h5 z' hz').trans (add_le_add_right ?_ _)⟩
  show (rank P.es : ℝ) / K ^ 2 ≤ ε
  have h6 : rank P.es = ε * (K - 1) := by
    rw [hK]
    field_simp
    ring
  rw [div_le_iff₀ (by positivity), h6]
  exact mul_le_mul_of_nonneg_left (by nlinarith) hε.le

/-! ### Examples -/

theorem exLinear_allLinear (a : ℝ) (n : Nat) (w : Linear.Ws ℝ) : AllLinear (exLinear a n w).es := fun e he => by
  simp only [exLinear, List.mem_cons, List.not_mem_nil, or_false] at he
  subst he
  exact ⟨_, _, rfl⟩

theorem exStart_allLinear (a : ℝ) (n : Nat) (w : Linear.Ws ℝ) : AllLinear (startEs (exLinear a n w)) := fun e he => by
  simp only [startEs, identity, exLinear, List.map_cons, List.map_nil, List.mem_cons, List.not_mem_nil, or_false] at he
  subst he
  exact ⟨_, _, rfl⟩

/-- The hypotheses of `C91_bound` and `C91_chosen` for `-1 ≤ y ≤ 1` with cost `-4/3`, at the start: the weighted slacks
are 5/3 and 1/3. -/
example (w : Linear.Ws ℝ) (mat : Sup.Store ℝ) : ∃ (p : Iteration.Setup ℝ) (x : Iteration.State ℝ) (f : Iteration.Factored ℝ)
    (solver : Sup.Solver ℝ) (y : Nat → ℝ), Ready p [[]] x ∧ AllLinear x.es ∧ count x.es = 2 ∧
      Iteration.factorize Gap.exEnv p x = .ok f ∧ f.solver = some solver ∧
      solver.solveInPlace p.qr p.N (fun u => f.r.AQc u * p.cs - p.b u * p.bs) = .ok y ∧
      ∀ i < x.es.length, ∀ r < (con (nth x.es i).item).n, 0 < weight (nth x.es i).item r * slack x.es p.cs y i r ∧
        weight (nth x.es i).item r * slack x.es p.cs y i r ≤ 30000 := by
  obtain ⟨-, kkt, -, hr, -⟩ := start_ready (l := ⟨false, 1, Sup.realLlt, fun _ _ b => b, mat⟩)
    (exLinear_good (-4 / 3) 1 w).1 Sup.realLlt_contract Sup.realLlt_complete rfl
  obtain ⟨f, solver, -, h1, h2, -⟩ := factor_solves Gap.exEnv_sqrt hr
  obtain ⟨y, h3, h4⟩ := divergence_point Gap.exEnv_sqrt hr h1 h2
  obtain ⟨hp, hc⟩ := polyhedral_linear (exStart_allLinear (-4 / 3) 2 w)
  refine ⟨_, _, f, solver, y, hr, exStart_allLinear (-4 / 3) 2 w, ?_, h1, h2, h3, fun i hi r hr' => ?_⟩
  · norm_num [count, startEs, identity, exLinear, nth, con, setIdentity]
  · have h5 := h4 hp hc 0 (by show 0 < 1; norm_num)
    norm_num [balance, lam, slack, weight, startEs, identity, exLinear, nth, con, setIdentity, Linear.setIdentity,
      Sup.Spec.ventry, sum_range_succ, Program.b] at h5
    have hi' : i = 0 := by
      have : i < 1 := hi
      omega
    subst hi'
    have hr'' : r < 2 := hr'
    have hy : y 0 = -2 / 3 := by linarith
    interval_cases r <;> norm_num [slack, weight, startEs, identity, exLinear, nth, con, setIdentity, Linear.setIdentity,
      sum_range_succ, hy]

/-- `C91_solvable` for that program. -/
example (w : Linear.Ws ℝ) (mat : Sup.Store ℝ) (ε : ℝ) (hε : 0 < ε) :
    ∃ (cfg : SolveLoop.Config ℝ) (factor : ℝ), cfg.mode = 0 ∧ cfg.lineSearch = false ∧ 0 < factor ∧
      ∀ (dmax big : ℝ) (status : SolveLoop.Status),
        ∃ r z, solveSearch Gap.exEnv ⟨false, 1, Sup.realLlt, fun _ _ b => b, mat⟩ ⟨dmax, big, factor⟩ (exLinear (-4 / 3) 2 w) cfg status =
          .ok r ∧ r.res.ret = true ∧ r.array = some z ∧ Gap.Spec.Feasible (exLinear (-4 / 3) 2 w).es z ∧
          ∀ z', Gap.Spec.Feasible (exLinear (-4 / 3) 2 w).es z' →
            value (exLinear (-4 / 3) 2 w) z ≤ value (exLinear (-4 / 3) 2 w) z' + ε :=
  C91_solvable Gap.exEnv Gap.exEnv_sqrt rfl Iteration.ex_solves ⟨false, 1, Sup.realLlt, fun _ _ b => b, mat⟩
    Sup.realLlt_contract Sup.realLlt_complete rfl _ (exLinear_good (-4 / 3) 1 w).1 (exLinear_allLinear _ _ w) rfl
    (by simp [count, exLinear, con, nth]) ⟨_, _, exSearch_interior w⟩ ε hε

/-- The hypotheses of `C91_converges`: two rows, `divergence_upper_bound` 1/64, `inv_sqrt_mu_max` 2, 23 increases. -/
example (w : Linear.Ws ℝ) (mat : Sup.Store ℝ) (status : SolveLoop.Status) :
    ∃ r z, solveSearch Gap.exEnv ⟨false, 1, Sup.realLlt, fun _ _ b => b, mat⟩ ⟨1, 10, 1 / 64⟩ (exLinear (-4 / 3) 2 w)
      ⟨true, 0, 2, 1 - 1 / 10 ^ 15, false, 5, 1 / 10, 0, 1071, 2, 1099, 1 / 4, 1, false⟩ status = .ok r ∧
      r.res.ret = true ∧ r.array = some z := by
  have hmin : SolveLoop.kMin Gap.exEnv.sqrt
      (⟨true, 0, 2, 1 - 1 / 10 ^ 15, false, 5, 1 / 10, 0, 1071, 2, 1099, 1 / 4, 1, false⟩ : SolveLoop.Config ℝ) = 1 := by
    have e : SolveLoop.kMin Gap.exEnv.sqrt
        (⟨true, 0, 2, 1 - 1 / 10 ^ 15, false, 5, 1 / 10, 0, 1071, 2, 1099, 1 / 4, 1, false⟩ : SolveLoop.Config ℝ) =
          Real.sqrt 1 := by
      unfold SolveLoop.kMin
      norm_num [Gap.exEnv]
    rw [e, Real.sqrt_one]
  have hcount : count (exLinear (-4 / 3) 2 w).es = 2 := by simp [count, exLinear, con, nth]
  obtain ⟨r, z, h1, h2, -, h3, -⟩ := C91_converges Gap.exEnv Gap.exEnv_sqrt rfl Iteration.ex_solves
    ⟨false, 1, Sup.realLlt, fun _ _ b => b, mat⟩ Sup.realLlt_contract Sup.realLlt_complete rfl _ (exLinear_good (-4 / 3) 1 w).1
    (exLinear_allLinear _ _ w) rfl (by rw [hcount]; norm_num) _ _ (exSearch_interior w) ⟨1, 10, 1 / 64⟩ (by norm_num)
    (by rw [hcount]; norm_num)
    ⟨true, 0, 2, 1 - 1 / 10 ^ 15, false, 5, 1 / 10, 0, 1071, 2, 1099, 1 / 4, 1, false⟩ rfl rfl rfl (by norm_num)
    (by rw [hmin]; norm_num) (by rw [hmin]; norm_num) (by norm_num) (by norm_num) (by norm_num) (by norm_num) 3 (by norm_num)
    (by rw [hcount]; norm_num) (by norm_num) 1 1 one_pos one_pos
    (fun i hi r hr => by
      rw [hmin, one_mul]
      split_ifs <;> norm_num)
    (fun i hi r hr => by
      rw [hmin, one_mul]
      have hi' : i = 0 := by
        have : i < 1 := hi
        omega
      subst hi'
      norm_num [slack, exLinear, nth, con])
    (by
      have e1 : product (exLinear (-4 / 3) 2 w).es 1 (fun _ => 0) (fun _ r => if r = 0 then 7 / 3 else 1) = 10 / 3 := by
        norm_num [product, slack, exLinear, nth, con, sum_range_succ]
      rw [e1, hcount]
      norm_num) (1 / 32) (by norm_num) (by norm_num) 23 (by rw [hmin]; norm_num) (by norm_num) status
  exact ⟨r, z, h1, h2, h3⟩

end Verif.Whole
