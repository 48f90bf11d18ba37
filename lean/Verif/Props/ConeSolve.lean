import Verif.Lemmas.ConeSolve
import Verif.Props.ConeExists

/-!
# C94: solving second-order cone programs with the divergence

The composed model of `Solve` without line search, the default, for linear inequalities, second-order cones and quadratic
cones.  `DivergenceUpperBound` bounds the distance of the scaling points from the central point, and if
`divergence_upper_bound` is small, `Solve` reports success after a bounded number of iterations, and the array holds a
feasible point that is optimal up to the gap of the largest barrier parameter.
-/

namespace Verif.ConeCentering

open Finset Verif.Dual Iteration.Spec Whole.Spec Spec
open Spin.Spec (Interior smul one)
open Soc (El)
open Whole (Search Program divergenceMu slackEntries)

/-- All constraints are linear inequalities, second-order cones or quadratic cones. -/
def AllCones (es : List (Entry ℝ)) : Prop :=
  ∀ e ∈ es, (∃ o w, e.item = .linear o w) ∨ (∃ o w, e.item = .soc o w) ∨ ∃ o w, e.item = .quad o w

theorem AllCones.split {es : List (Entry ℝ)} (h : AllCones es) : VectorCones es ∧ Whole.NoCosts es := by
  refine ⟨fun e he => ?_, fun e he n Q hx => ?_⟩
  · rcases h e he with h | h | h
    · exact Or.inl h
    · exact Or.inr (Or.inl h)
    · exact Or.inr (Or.inr (Or.inl h))
  · rcases h e he with ⟨o, w, h⟩ | ⟨o, w, h⟩ | ⟨o, w, h⟩ <;> rw [h] at hx <;> cases hx

/-- The divergence bounds the distance: wherever the bound that the function computes is finite, it is at least the distance of
the scaling points from the central point, which by C92 limits the number of centering iterations.  No condition on the
size of the slacks is needed. -/
theorem C94_bound (v : Env ℝ) (hv : ∀ x, 0 ≤ x → SolveLoop.Spec.SqrtAt v.sqrt x) (p : Iteration.Setup ℝ)
    (duals : List (List Nat)) (x : Iteration.State ℝ) (hr : Ready p duals x) (hall : AllCones x.es)
    (S : Search ℝ) (f : Iteration.Factored ℝ) (solver : Sup.Solver ℝ) (hf : Iteration.factorize v p x = .ok f)
    (hsol : f.solver = some solver) :
    ∃ t, divergenceMu v S p x.es f.r solver = .ok (Divergence.muFromDivergence v.sqrt S.factor t) ∧
      ∀ k, 0 < k → Divergence.boundIsFinite k t = true →
        ∀ z, Central x.es p.N (fun u => k * p.bs * p.b u) (k * p.cs) z →
          distance x.es (k * p.cs) z ≤ Divergence.divergence k t := by
  obtain ⟨hp, hc⟩ := hall.split
  obtain ⟨hs, hw⟩ := shape_of hr hp
  obtain ⟨y, t, L, -, h1, -, h2, hD, h3, h6, -⟩ := divergence_data (S := S) hv hr hp hc hf hsol
  refine ⟨t, h2, fun k hk0 hk z hz => ?_⟩
  have hk' : Divergence.normInf k t < 1 := of_decide_eq_true hk
  unfold Divergence.divergence
  rw [le_div_iff₀ (by linarith), mul_comm]
  have h7 := distance_le hs (fun y u => gradients_none hp hc y u) hk0 hw h1 hz (l := 1 - Divergence.normInf k t)
    fun i hi r hr' => by
      obtain ⟨a, ha, b, hb, e⟩ := hD.all i hi r hr'
      have e1 := (abs_le.1 (Divergence.abs_le_normInf (h6 a ha).1 (h6 a ha).2 k)).1
      have e2 := (abs_le.1 (Divergence.abs_le_normInf (h6 b hb).1 (h6 b hb).2 k)).1
      exact ⟨a, b, e, by linarith, by linarith⟩
  rw [h3, hD.sum]
  exact h7

/-- The parameter that is chosen.  If all slacks are interior points and below 30000 times the inverse scaling points, it is
positive, and the distance of the scaling points from its central point is at most `divergence_upper_bound` times the rank,
unless no parameter has this bound. -/
theorem C94_chosen (v : Env ℝ) (hv : ∀ x, 0 ≤ x → SolveLoop.Spec.SqrtAt v.sqrt x) (p : Iteration.Setup ℝ)
    (duals : List (List Nat)) (x : Iteration.State ℝ) (hr : Ready p duals x) (hall : AllCones x.es) (hn : 1 ≤ orders x.es)
    (S : Search ℝ) (hS : 0 < S.factor) (f : Iteration.Factored ℝ) (solver : Sup.Solver ℝ)
    (hf : Iteration.factorize v p x = .ok f) (hsol : f.solver = some solver) (y : Nat → ℝ)
    (hy : solver.solveInPlace p.qr p.N (fun u => f.r.AQc u * p.cs - p.b u * p.bs) = .ok y)
    (hpos : ∀ i < x.es.length, ∀ r < cells (nth x.es i).item, Interior (form (nth x.es i).item) (slack x.es p.cs y i r) ∧
      Below (form (nth x.es i).item) 1 (slack x.es p.cs y i r)
        (smul 30000 (inverse (form (nth x.es i).item) (point (nth x.es i).item r)))) :
    ∃ k, divergenceMu v S p x.es f.r solver = .ok k ∧ 0 < k ∧
      ((∀ z, Central x.es p.N (fun u => k * p.bs * p.b u) (k * p.cs) z →
        distance x.es (k * p.cs) z ≤ S.factor * orders x.es) ∨
      ∀ t, slackEntries v p.cs p.N y x.es ⟨0, 0, 30000, -30000, rank x.es⟩ = .ok t →
        ∀ k', Divergence.boundIsFinite k' t = true → Divergence.divergence k' t ≠ S.factor * orders x.es) := by
  obtain ⟨hp, hc⟩ := hall.split
  obtain ⟨hs, hw⟩ := shape_of hr hp
  obtain ⟨y', t, L, h0, h1, h2, h3, hD, -, -, h4⟩ := divergence_data (S := S) hv hr hp hc hf hsol
  rw [hy, Outcome.ok.injEq] at h0
  subst h0
  have hmem : ∀ a ∈ L, 0 < a ∧ a ≤ 30000 := fun a ha => by
    obtain ⟨i, hi, r, hr', b, e⟩ := hD.mem a ha
    have hB := (hs.kind i hi).form
    obtain ⟨g1, g2⟩ := hpos i hi r hr'
    exact ⟨(Spin.eigs_pos hB (hw i hi r hr') e g1).1, (Spin.eigs_le hB (hw i hi r hr') e g2).1⟩
  have hd := h4 hn fun a ha => abs_le.2 ⟨by linarith [(hmem a ha).1], (hmem a ha).2⟩
  have hlen := data_length hD
  obtain ⟨g1, g2, g3⟩ := Divergence.C51_positive hv hd (fun a ha => (hmem a ha).1) hS
  refine ⟨_, h3, g1, ?_⟩
  have hdiv : ∀ k, Divergence.divergence k t = Divergence.Spec.bound L k := by
    intro k
    unfold Divergence.divergence Divergence.Spec.bound
    rw [Divergence.distSq_eq hd, Divergence.normInf_eq hd]
  rcases g3 with g3 | ⟨g3, -⟩
  · refine Or.inl fun z hz => ?_
    have h7 := distance_le hs (fun y u => gradients_none hp hc y u) g1 hw h1 hz
      (l := 1 - Divergence.Spec.dist L (Divergence.muFromDivergence v.sqrt S.factor t)) fun i hi r hr' => by
        obtain ⟨a, ha, b, hb, e⟩ := hD.all i hi r hr'
        have e1 := (abs_le.1 (Divergence.le_dist (k := Divergence.muFromDivergence v.sqrt S.factor t) ha)).1
        have e2 := (abs_le.1 (Divergence.le_dist (k := Divergence.muFromDivergence v.sqrt S.factor t) hb)).1
        exact ⟨a, b, e, by linarith, by linarith⟩
    rw [hlen] at g3
    rw [← g3]
    unfold Divergence.Spec.bound
    rw [le_div_iff₀ (by linarith), mul_comm]
    refine h7.trans (le_of_eq ?_)
    rw [hD.sum]
  · refine Or.inr fun t' ht' k' hk' => ?_
    rw [h2, Outcome.ok.injEq] at ht'
    subst ht'
    rw [hdiv, ← hlen]
    refine g3 k' ?_
    rw [← Divergence.normInf_eq hd]
    exact of_decide_eq_true hk'

/-- Convergence.  `y` and `x` are interior points of the program and of its dual, which for the smallest barrier parameter
are above `ν` and `μ` times the unit of the cone.  `divergence_upper_bound` is small enough for the rank and `maximum_mu` is
not huge, `F` final and `initCold` initial centering steps suffice, and after `J` increases of the barrier parameter by the
factor `1 + τ` the largest one is reached, where `16 τ² ≤ divergence_upper_bound`. -/
theorem C94_converges (v : Env ℝ) (hv : ∀ x, 0 ≤ x → SolveLoop.Spec.SqrtAt v.sqrt x) (hexp : v.exp = Real.exp)
    (hs : ∀ n, MatrixExp.Spec.Solves (v.solve n)) (l : Whole.Linear ℝ) (hl : Dense.Spec.LltContract l.llt)
    (hc : Dense.Spec.LltComplete l.llt) (hqr : l.useQr = false) (P : Program ℝ) (hP : VectorProgram P)
    (hall : AllCones P.es) (hquad : P.quadratic = false) (hrows : 1 ≤ orders P.es)
    (y : Nat → ℝ) (x : Nat → Nat → El ℝ) (hI : Strict P.es P.m P.b 1 y x y)
    (S : Search ℝ) (hS : 0 < S.factor) (hsmall : S.factor * orders P.es ≤ 1 / 32)
    (cfg : SolveLoop.Config ℝ) (hmode : cfg.mode = 0) (hline : cfg.lineSearch = false) (hplain : cfg.rescaling = false)
    (hmu : 0 < 1 / 10 ^ 15 + cfg.maximumMu) (hlow : 1 / 24000 ≤ SolveLoop.kMin v.sqrt cfg)
    (hmax : SolveLoop.kMin v.sqrt cfg ≤ cfg.invSqrtMuMax)
    (hkkt : 0 ≤ cfg.kktTol) (htol : 0 ≤ cfg.finalTol) (htol' : cfg.finalTol ≤ 1)
    (hthr : 1 / cfg.invSqrtMuMax ^ 2 ≤ cfg.infeasThreshold)
    (F : Nat) (hfine : 1 / 2 * (1 / 2) ^ 2 ^ F ≤ cfg.finalTol ^ 2)
    (hclose : 1 / 2 * (1 / 2) ^ 2 ^ F ≤ 2 * (S.factor * orders P.es) ^ 2) (hF : (F : Int) < cfg.finalSteps)
    (μ ν : ℝ) (hμ : 0 < μ) (hν : 0 < ν)
    (hx : ∀ i < P.es.length, ∀ r < cells (nth P.es i).item,
      Below (form (nth P.es i).item) μ one (smul (SolveLoop.kMin v.sqrt cfg) (x i r)))
    (hy : ∀ i < P.es.length, ∀ r < cells (nth P.es i).item,
      Below (form (nth P.es i).item) ν one (smul (SolveLoop.kMin v.sqrt cfg) (slack P.es 1 y i r)))
    (hinit : 40 * ((orders P.es + cfg.invSqrtMuMax ^ 2 * product P.es 1 y x) * (1 / μ + 1 / ν) - 2 * orders P.es) + 1 + F ≤
      cfg.initCold)
    (τ : ℝ) (hτ : 0 ≤ τ) (hτS : 16 * τ ^ 2 ≤ S.factor)
    (J : Nat) (hJ : cfg.invSqrtMuMax ≤ (1 + τ) ^ J * SolveLoop.kMin v.sqrt cfg)
    (hiter : cfg.initCold + J ≤ cfg.maxIter - cfg.finalSteps) (status : SolveLoop.Status) :
    ∃ r z, Whole.solveSearch v l S P cfg status = .ok r ∧ r.res.ret = true ∧
      r.res.final = some (cfg.invSqrtMuMax, cfg.invSqrtMuMax) ∧ r.array = some z ∧ Gap.Spec.Feasible P.es z ∧
      ∀ z', Gap.Spec.Feasible P.es z' → value P z ≤ value P z' + rank P.es / cfg.invSqrtMuMax ^ 2 := by
  have hmin := Whole.kMin_pos hv hmu
  obtain ⟨hp, hcost⟩ := hall.split
  have hB : 0 < S.factor * orders P.es := mul_pos hS (by linarith)
  exact cones_converges hl hc hqr hP hp hcost hI hs ⟨hv, hexp, hmode, Or.inr hquad, hplain, hkkt, hmin, hmax, htol, hfine,
    by nlinarith, hF⟩ hclose hrows hτ (fun kkt => by
      rw [hquad]
      exact divergence_grows hv hexp hs hS hsmall hrows hτ hτS hline hlow _ _ _) hmu htol' hthr hμ hν hx hy
    hinit hJ hiter status

/-- Every second-order cone program with interior points can be solved to any accuracy: there are options for which `Solve`
reports success and the array holds a feasible point whose value is optimal up to `ε`, whatever the status block and the
options of the line search are. -/
theorem C94_solvable (v : Env ℝ) (hv : ∀ x, 0 ≤ x → SolveLoop.Spec.SqrtAt v.sqrt x) (hexp : v.exp = Real.exp)
    (hs : ∀ n, MatrixExp.Spec.Solves (v.solve n)) (l : Whole.Linear ℝ) (hl : Dense.Spec.LltContract l.llt)
    (hc : Dense.Spec.LltComplete l.llt) (hqr : l.useQr = false) (P : Program ℝ) (hP : VectorProgram P)
    (hall : AllCones P.es) (hquad : P.quadratic = false) (hrows : 1 ≤ orders P.es)
    (hI : ∃ y x, Strict P.es P.m P.b 1 y x y) (ε : ℝ) (hε : 0 < ε) :
    ∃ (cfg : SolveLoop.Config ℝ) (factor : ℝ), cfg.mode = 0 ∧ cfg.lineSearch = false ∧ 0 < factor ∧
      ∀ (dmax big : ℝ) (status : SolveLoop.Status),
        ∃ r z, Whole.solveSearch v l ⟨dmax, big, factor⟩ P cfg status = .ok r ∧ r.res.ret = true ∧ r.array = some z ∧
          Gap.Spec.Feasible P.es z ∧ ∀ z', Gap.Spec.Feasible P.es z' → value P z ≤ value P z' + ε := by
  obtain ⟨y, x, hI⟩ := hI
  obtain ⟨-, kkt, -, hr, -⟩ := Whole.start_ready hP hl hc hqr
  obtain ⟨hshape, -⟩ := shape_of hr (cones_start hall.split.1)
  have ha := alike_start hall.split.1
  have hform : ∀ i < P.es.length, Spin.Spec.IsForm (form (nth P.es i).item) := fun i hi => by
    rw [← (ha.data i hi).form]
    exact (hshape.kind i (ha.length ▸ hi)).form
  have hdet : ∀ (B : (Nat → ℝ) → (Nat → ℝ) → ℝ) (s : El ℝ), Interior B s → 0 < det B s / (2 * s.h) := fun B s h =>
    div_pos (Spin.det_pos h) (by linarith [h.1])
  obtain ⟨μ, hμ, hx⟩ := Whole.lower_bound P.es.length (fun i => cells (nth P.es i).item)
    (fun i r => det (form (nth P.es i).item) (x i r) / (2 * (x i r).h)) fun i hi r hr' => hdet _ _ (hI.dual i hi r hr')
  obtain ⟨ν, hν, hy⟩ := Whole.lower_bound P.es.length (fun i => cells (nth P.es i).item)
    (fun i r => det (form (nth P.es i).item) (slack P.es 1 y i r) / (2 * (slack P.es 1 y i r).h))
    fun i hi r hr' => hdet _ _ (hI.primal i hi r hr')
  have hrank : (0 : ℝ) ≤ rank P.es := Nat.cast_nonneg _
  set K : ℝ := 1 + rank P.es / ε with hK
  have hK1 : 1 ≤ K := by
    have : (0 : ℝ) ≤ rank P.es / ε := by positivity
    linarith
  have hn0 : 0 < orders P.es := by linarith
  set φ : ℝ := 1 / (32 * orders P.es) with hφ
  have hφ0 : 0 < φ := by positivity
  have hφn : φ * orders P.es = 1 / 32 := by
    rw [hφ]
    field_simp
  have hφ1 : φ ≤ 1 / 32 := by nlinarith
  obtain ⟨F, hF⟩ := exists_pow_lt_of_lt_one (show 0 < (1 / 512 : ℝ) by norm_num)
    (show (1 / 2 : ℝ) < 1 by norm_num)
  have hF' : (1 / 2 : ℝ) * (1 / 2) ^ 2 ^ F ≤ 1 / 512 := by
    have h1 : (1 / 2 : ℝ) ^ 2 ^ F ≤ (1 / 2) ^ F :=
      pow_le_pow_of_le_one (by norm_num) (by norm_num) Nat.lt_two_pow_self.le
    have h2 : (0 : ℝ) ≤ (1 / 2) ^ 2 ^ F := by positivity
    linarith
  obtain ⟨J, hJ⟩ := pow_unbounded_of_one_lt K (lt_add_of_pos_right 1 hφ0)
  obtain ⟨I, hI'⟩ := exists_nat_ge (40 * ((orders P.es + K ^ 2 * product P.es 1 y x) * (1 / μ + 1 / ν) -
    2 * orders P.es) + 1 + F)
  set cfg : SolveLoop.Config ℝ := ⟨true, 0, K, 1 - 1 / 10 ^ 15, false, F + 1, 1 / 10, 0, I, 2, I + J + F + 1, 1 / K ^ 2, 1,
    false⟩ with hcfg
  have hmin : SolveLoop.kMin v.sqrt cfg = 1 := by
    have e : SolveLoop.kMin v.sqrt cfg = v.sqrt 1 := by
      unfold SolveLoop.kMin
      rw [hcfg]
      norm_num
    obtain ⟨h1, h2⟩ := hv 1 zero_le_one
    rw [e]
    nlinarith
  have hone : ∀ s : El ℝ, smul 1 s = s := fun s => by simp [smul]
  refine ⟨cfg, φ, rfl, rfl, hφ0, fun dmax big status => ?_⟩
  obtain ⟨r, z, h1, h2, -, h3, h4, h5⟩ := C94_converges v hv hexp hs l hl hc hqr P hP hall hquad hrows y x hI ⟨dmax, big, φ⟩ hφ0
    hφn.le cfg rfl rfl rfl (by norm_num [hcfg]) (by rw [hmin]; norm_num) (by rw [hmin]; exact hK1) (by norm_num [hcfg])
    (by norm_num [hcfg]) (by norm_num [hcfg]) le_rfl F (hF'.trans (by norm_num [hcfg])) (hF'.trans (by
      show (1 / 512 : ℝ) ≤ 2 * (φ * orders P.es) ^ 2
      rw [hφn]
      norm_num))
    (by show (F : Int) < F + 1
        omega) μ ν hμ hν
    (fun i hi r hr' => by
      rw [hmin, hone]
      exact below_one (hform i hi) (hI.dual i hi r hr') (hx i hi r hr'))
    (fun i hi r hr' => by
      rw [hmin, hone]
      exact below_one (hform i hi) (hI.primal i hi r hr') (hy i hi r hr'))
    (by simpa [hcfg] using hI') φ hφ0.le (by
      show 16 * φ ^ 2 ≤ φ
      nlinarith) J (by rw [hmin, mul_one]; exact hJ.le)
    (by show (I : Int) + J ≤ I + J + F + 1 - (F + 1)
        omega) status
  refine ⟨r, z, h1, h2, h3, h4, fun z' hz' => (h5 z' hz').trans (add_le_add_right ?_ _)⟩
  show (rank P.es : ℝ) / K ^ 2 ≤ ε
  have h6 : rank P.es = ε * (K - 1) := by
    rw [hK]
    field_simp
    ring
  rw [div_le_iff₀ (by positivity), h6]
  exact mul_le_mul_of_nonneg_left (by nlinarith) hε.le

/-! ### Examples -/

theorem exBall_all (w : Soc.Ws ℝ) : AllCones (exBall w).es := fun e he => Or.inr (Or.inl (by
  simp only [exBall, List.mem_cons, List.not_mem_nil, or_false] at he
  subst he
  exact ⟨_, _, rfl⟩))

theorem exStart_all (w : Soc.Ws ℝ) : AllCones (Whole.startEs (exBall w)) := fun e he => Or.inr (Or.inl (by
  simp only [Whole.startEs, Whole.identity, exBall, List.map_cons, List.map_nil, List.mem_cons, List.not_mem_nil,
    or_false] at he
  subst he
  exact ⟨_, _, rfl⟩))

theorem exBall_strict' (w : Soc.Ws ℝ) : Strict (exBall w).es 2 (exBall w).b 1 (fun _ => 0)
    (fun _ _ => ⟨1, fun l => if l = 0 then 2 / 3 else 0⟩) (fun _ => 0) := by
  have h := exBall_strict w
  have ha := alike_start (exBall_all w).split.1
  refine ⟨fun i hi r hr => ?_, fun i hi r hr => ?_, fun u hu => ?_⟩
  · have := h.primal i (ha.length ▸ hi) r (by rw [(ha.data i hi).cells]; exact hr)
    rwa [ha.slack 1 _ hi, (ha.data i hi).form] at this
  · have := h.dual i (ha.length ▸ hi) r (by rw [(ha.data i hi).cells]; exact hr)
    rwa [(ha.data i hi).form] at this
  · have := h.equations u hu
    rwa [ha.gradients, ha.image] at this

/-- The hypotheses of `C94_bound` and `C94_chosen` for `‖y‖ ≤ 1` with cost `-4/3 y₀`, at the start: the slack is
`(1, 2/3, 0)` and its eigenvalues are 5/3 and 1/3. -/
example (w : Soc.Ws ℝ) (mat : Sup.Store ℝ) : ∃ (p : Iteration.Setup ℝ) (x : Iteration.State ℝ) (f : Iteration.Factored ℝ)
    (solver : Sup.Solver ℝ) (y : Nat → ℝ), Ready p [[]] x ∧ AllCones x.es ∧ orders x.es = 2 ∧
      Iteration.factorize Gap.exEnv p x = .ok f ∧ f.solver = some solver ∧
      solver.solveInPlace p.qr p.N (fun u => f.r.AQc u * p.cs - p.b u * p.bs) = .ok y ∧
      ∀ i < x.es.length, ∀ r < cells (nth x.es i).item, Interior (form (nth x.es i).item) (slack x.es p.cs y i r) ∧
        Below (form (nth x.es i).item) 1 (slack x.es p.cs y i r)
          (smul 30000 (inverse (form (nth x.es i).item) (point (nth x.es i).item r))) := by
  obtain ⟨-, kkt, -, hr, -⟩ := Whole.start_ready (l := ⟨false, 1, Sup.realLlt, fun _ _ b => b, mat⟩)
    (exBall_good w) Sup.realLlt_contract Sup.realLlt_complete rfl
  obtain ⟨f, solver, -, h1, h2, -⟩ := Whole.factor_solves Gap.exEnv_sqrt hr
  obtain ⟨y, h3, h4⟩ := divergence_point Gap.exEnv_sqrt hr h1 h2
  obtain ⟨hp, hc⟩ := (exStart_all w).split
  refine ⟨_, _, f, solver, y, hr, exStart_all w, ?_, h1, h2, h3, fun i hi r hr' => ?_⟩
  · norm_num [orders, order, cells, Whole.startEs, Whole.identity, exBall, nth, Whole.setIdentity]
  · have h5 := h4 hp hc 0 (by show 0 < 2; norm_num)
    have h6 := h4 hp hc 1 (by show 1 < 2; norm_num)
    norm_num [scaledSlack, slack, Spec.image, pair, Spin.Spec.quad, Spin.Spec.mul, Spin.Spec.add, smul, point, form, cells,
      affine, column, Whole.startEs, Whole.identity, exBall, nth, Whole.setIdentity, Soc.setIdentity, Soc.ofMatrices,
      Soc.dot, Sup.Spec.ventry, sum_range_succ, Program.b] at h5 h6
    have hi' : i = 0 := by
      have : i < 1 := hi
      omega
    subst hi'
    have hy0 : y 0 = -2 / 3 := by linarith
    have hy1 : y 1 = 0 := by linarith
    refine ⟨⟨?_, ?_⟩, ⟨?_, ?_⟩⟩ <;> norm_num [slack, smul, point, form, inverse, det,
      affine, column, Whole.startEs, Whole.identity, exBall, nth, Whole.setIdentity, Soc.setIdentity, Soc.ofMatrices,
      Soc.dot, sum_range_succ, hy0, hy1]

/-- `C94_solvable` for that program. -/
example (w : Soc.Ws ℝ) (mat : Sup.Store ℝ) (ε : ℝ) (hε : 0 < ε) :
    ∃ (cfg : SolveLoop.Config ℝ) (factor : ℝ), cfg.mode = 0 ∧ cfg.lineSearch = false ∧ 0 < factor ∧
      ∀ (dmax big : ℝ) (status : SolveLoop.Status),
        ∃ r z, Whole.solveSearch Gap.exEnv ⟨false, 1, Sup.realLlt, fun _ _ b => b, mat⟩ ⟨dmax, big, factor⟩ (exBall w) cfg status =
          .ok r ∧ r.res.ret = true ∧ r.array = some z ∧ Gap.Spec.Feasible (exBall w).es z ∧
          ∀ z', Gap.Spec.Feasible (exBall w).es z' → value (exBall w) z ≤ value (exBall w) z' + ε :=
  C94_solvable Gap.exEnv Gap.exEnv_sqrt rfl Iteration.ex_solves ⟨false, 1, Sup.realLlt, fun _ _ b => b, mat⟩
    Sup.realLlt_contract Sup.realLlt_complete rfl _ (exBall_good w) (exBall_all w) rfl
    (by norm_num [orders, order, cells, exBall, nth]) ⟨_, _, exBall_strict' w⟩ ε hε

/-- The hypotheses of `C94_converges`: one cone of rank two, `divergence_upper_bound` 1/64, `inv_sqrt_mu_max` 2, 23
increases. -/
example (w : Soc.Ws ℝ) (mat : Sup.Store ℝ) (status : SolveLoop.Status) :
    ∃ r z, Whole.solveSearch Gap.exEnv ⟨false, 1, Sup.realLlt, fun _ _ b => b, mat⟩ ⟨1, 10, 1 / 64⟩ (exBall w)
      ⟨true, 0, 2, 1 - 1 / 10 ^ 15, false, 5, 1 / 10, 0, 1444, 2, 1472, 1 / 4, 1, false⟩ status = .ok r ∧
      r.res.ret = true ∧ r.array = some z := by
  have hmin : SolveLoop.kMin Gap.exEnv.sqrt
      (⟨true, 0, 2, 1 - 1 / 10 ^ 15, false, 5, 1 / 10, 0, 1444, 2, 1472, 1 / 4, 1, false⟩ : SolveLoop.Config ℝ) = 1 := by
    have e : SolveLoop.kMin Gap.exEnv.sqrt
        (⟨true, 0, 2, 1 - 1 / 10 ^ 15, false, 5, 1 / 10, 0, 1444, 2, 1472, 1 / 4, 1, false⟩ : SolveLoop.Config ℝ) =
          Real.sqrt 1 := by
      unfold SolveLoop.kMin
      norm_num [Gap.exEnv]
    rw [e, Real.sqrt_one]
  have hcount : orders (exBall w).es = 2 := by norm_num [orders, order, cells, exBall, nth]
  have hone : ∀ s : El ℝ, smul 1 s = s := fun s => by simp [smul]
  obtain ⟨r, z, h1, h2, -, h3, -⟩ := C94_converges Gap.exEnv Gap.exEnv_sqrt rfl Iteration.ex_solves
    ⟨false, 1, Sup.realLlt, fun _ _ b => b, mat⟩ Sup.realLlt_contract Sup.realLlt_complete rfl _ (exBall_good w)
    (exBall_all w) rfl (by rw [hcount]; norm_num) _ _ (exBall_strict' w) ⟨1, 10, 1 / 64⟩ (by norm_num)
    (by rw [hcount]; norm_num)
    ⟨true, 0, 2, 1 - 1 / 10 ^ 15, false, 5, 1 / 10, 0, 1444, 2, 1472, 1 / 4, 1, false⟩ rfl rfl rfl (by norm_num)
    (by rw [hmin]; norm_num) (by rw [hmin]; norm_num) (by norm_num) (by norm_num) (by norm_num) (by norm_num) 3 (by norm_num)
    (by rw [hcount]; norm_num) (by norm_num) (1 / 3) 1 (by norm_num) one_pos
    (fun i hi r hr => by
      rw [hmin, hone]
      have hi' : i = 0 := by
        have : i < 1 := hi
        omega
      subst hi'
      constructor <;> norm_num [one, form, exBall, nth, Soc.ofMatrices, Soc.dot, sum_range_succ])
    (fun i hi r hr => by
      rw [hmin, hone]
      have hi' : i = 0 := by
        have : i < 1 := hi
        omega
      subst hi'
      constructor <;> norm_num [one, form, slack, affine, column, exBall, nth, Soc.ofMatrices, Soc.dot, sum_range_succ])
    (by
      have e1 : product (exBall w).es 1 (fun _ => 0) (fun _ _ => ⟨1, fun l => if l = 0 then 2 / 3 else 0⟩) = 2 := by
        norm_num [product, pair, form, slack, cells, affine, column, exBall, nth, Soc.ofMatrices, Soc.dot, sum_range_succ]
      rw [e1, hcount]
      norm_num) (1 / 32) (by norm_num) (by norm_num) 23 (by rw [hmin]; norm_num) (by norm_num) status
  exact ⟨r, z, h1, h2, h3⟩

end Verif.ConeCentering
