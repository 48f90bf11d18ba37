import Verif.Lemmas.SearchSolve
import Verif.Lemmas.SearchStuck

/-!
# C90: solving linear programs and convex quadratic programs with the line search

The composed model of `Solve` with its line search.  For programs of linear inequalities and convex quadratic costs that
have interior points, and for suitable options, `Solve` reports success after a bounded number of iterations, and the
array holds a feasible point that is optimal up to the gap of the largest barrier parameter.  With any other constraint
the line search always fails, and the barrier parameter stays at its first value.
-/

namespace Verif.Whole

open Finset LineSearch Centering.Spec Whole.Spec Iteration.Spec
open Verif.Dual

/-- The solve is the one of `Model/WholeSolve` for suitable answers of the line search, the divergence and the KKT error, so that what is proved about that one holds for this one. -/
theorem C90_refines {R : Type} [Field R] [LinearOrder R] (v : Env R) (l : Linear R) (S : Search R) (P : Program R)
    (p : SolveLoop.Prog R) (cfg : SolveLoop.Config R) (r : Result R)
    (h : solveSearchAt v l S P p cfg = .ok r) :
    ∃ c : SolveLoop.Oracle R, solveAt v l P p cfg c = .ok r :=
  solveSearch_refines h

/-- Convergence.  `y`, `x` and `w` are interior points of the program and of its dual; `μ` and `ν` are lower bounds for
the multipliers and the slacks there.  `dinf_upper_bound` is small enough for the number of rows, `F` final and
`initCold` initial centering steps suffice, and after `J` increases of the barrier parameter by the factor
`1 + dinf_upper_bound²` the largest one is reached. -/
theorem C90_converges (v : Env ℝ) (hv : ∀ x, 0 ≤ x → SolveLoop.Spec.SqrtAt v.sqrt x) (hexp : v.exp = Real.exp)
    (hs : ∀ n, MatrixExp.Spec.Solves (v.solve n)) (l : Linear ℝ) (hl : Dense.Spec.LltContract l.llt)
    (hc : Dense.Spec.LltComplete l.llt) (hqr : l.useQr = false) (P : Program ℝ) (hP : VectorProgram P)
    (hp : Polyhedral P.es) (hrows : 1 ≤ count P.es)
    (y : Nat → ℝ) (x : Nat → Nat → ℝ) (w : Nat → ℝ) (hI : Interior P.es P.m P.b 1 y x w)
    (S : Search ℝ) (hδ : 0 < S.dmax) (hsmall : 8 * count P.es * S.dmax ^ 2 ≤ 1)
    (cfg : SolveLoop.Config ℝ) (hmode : cfg.mode = 0) (hline : cfg.lineSearch = true) (hplain : cfg.rescaling = false)
    (hmu : 0 < 1 / 10 ^ 15 + cfg.maximumMu) (hmax : SolveLoop.kMin v.sqrt cfg ≤ cfg.invSqrtMuMax)
    (hbig : cfg.invSqrtMuMax ≤ S.big) (hkkt : 0 ≤ cfg.kktTol) (htol : 0 ≤ cfg.finalTol) (htol' : cfg.finalTol ≤ 1)
    (hthr : 1 / cfg.invSqrtMuMax ^ 2 ≤ cfg.infeasThreshold)
    (F : Nat) (hfine : 1 / 2 * (1 / 2) ^ 2 ^ F ≤ cfg.finalTol ^ 2) (hclose : 1 / 2 * (1 / 2) ^ 2 ^ F ≤ S.dmax ^ 2 / 4)
    (hF : (F : Int) < cfg.finalSteps)
    (μ ν : ℝ) (hμ : 0 < μ) (hν : 0 < ν)
    (hx : ∀ i < P.es.length, ∀ r < (con (nth P.es i).item).n, μ ≤ SolveLoop.kMin v.sqrt cfg * x i r)
    (hy : ∀ i < P.es.length, ∀ r < (con (nth P.es i).item).n, ν ≤ SolveLoop.kMin v.sqrt cfg * slack P.es 1 y i r)
    (hinit : 40 * ((count P.es + cfg.invSqrtMuMax ^ 2 * (product P.es 1 y x +
      curvature P.es P.m (fun u => w u - y u) / 4)) * (1 / μ + 1 / ν) - 2 * count P.es) + 1 + F ≤ cfg.initCold)
    (J : Nat) (hJ : cfg.invSqrtMuMax ≤ (1 + S.dmax ^ 2) ^ J * SolveLoop.kMin v.sqrt cfg)
    (hiter : cfg.initCold + J ≤ cfg.maxIter - cfg.finalSteps) (status : SolveLoop.Status) :
    ∃ r z, solveSearch v l S P cfg status = .ok r ∧ r.res.ret = true ∧
      r.res.final = some (cfg.invSqrtMuMax, cfg.invSqrtMuMax) ∧ r.array = some z ∧ Gap.Spec.Feasible P.es z ∧
      ∀ z', Gap.Spec.Feasible P.es z' → value P z ≤ value P z' + rank P.es / cfg.invSqrtMuMax ^ 2 := by
  have hmin := kMin_pos hv hmu
  have h1 : S.dmax ^ 2 / 4 ≤ 1 / 4 := by nlinarith [sq_nonneg S.dmax]
  exact polyhedral_converges hl hc hqr hP hp hI hs ⟨hv, hexp, hmode, Or.inl hline, hplain, hkkt, hmin, hmax, htol, hfine,
    h1, hF⟩ hclose hrows (sq_nonneg S.dmax) (fun kkt => search_grows hv hexp hs hδ hsmall hrows hline hmin hbig _ _ _) hmu htol' hthr hμ hν hx hy
    hinit hJ hiter status

/-- Every program of linear inequalities and convex quadratic costs with interior points can be solved to any accuracy:
there are options for which `Solve` reports success and the array holds a feasible point whose value is optimal up
to `ε`, whatever the status block and `divergence_upper_bound` are, and however large the largest double is. -/
theorem C90_solvable (v : Env ℝ) (hv : ∀ x, 0 ≤ x → SolveLoop.Spec.SqrtAt v.sqrt x) (hexp : v.exp = Real.exp)
    (hs : ∀ n, MatrixExp.Spec.Solves (v.solve n)) (l : Linear ℝ) (hl : Dense.Spec.LltContract l.llt)
    (hc : Dense.Spec.LltComplete l.llt) (hqr : l.useQr = false) (P : Program ℝ) (hP : VectorProgram P)
    (hp : Polyhedral P.es) (hrows : 1 ≤ count P.es) (hI : ∃ y x w, Interior P.es P.m P.b 1 y x w)
    (ε : ℝ) (hε : 0 < ε) :
    ∃ (cfg : SolveLoop.Config ℝ) (dmax limit : ℝ), cfg.mode = 0 ∧ cfg.lineSearch = true ∧ 0 < dmax ∧
      ∀ big, limit ≤ big → ∀ (factor : ℝ) (status : SolveLoop.Status),
        ∃ r z, solveSearch v l ⟨dmax, big, factor⟩ P cfg status = .ok r ∧ r.res.ret = true ∧ r.array = some z ∧
          Gap.Spec.Feasible P.es z ∧ ∀ z', Gap.Spec.Feasible P.es z' → value P z ≤ value P z' + ε := by
  obtain ⟨y, x, w, hI⟩ := hI
  have hn : (1 : ℝ) ≤ count P.es := by exact_mod_cast hrows
  obtain ⟨μ, hμ, hx⟩ := lower_bound P.es.length (fun i => (con (nth P.es i).item).n) x hI.dual
  obtain ⟨ν, hν, hy⟩ := lower_bound P.es.length (fun i => (con (nth P.es i).item).n) (slack P.es 1 y) hI.primal
  have hrank : (0 : ℝ) ≤ rank P.es := Nat.cast_nonneg _
  set K : ℝ := 1 + rank P.es / ε with hK
  have hK1 : 1 ≤ K := by
    have : (0 : ℝ) ≤ rank P.es / ε := by positivity
    linarith
  set δ : ℝ := 1 / (3 * count P.es) with hδ
  have hδ0 : 0 < δ := by positivity
  obtain ⟨F, hF⟩ := exists_pow_lt_of_lt_one (show 0 < min ((1 / 10 : ℝ) ^ 2) (δ ^ 2 / 4) by positivity)
    (show (1 / 2 : ℝ) < 1 by norm_num)
  have hF' : (1 / 2 : ℝ) * (1 / 2) ^ 2 ^ F ≤ min ((1 / 10 : ℝ) ^ 2) (δ ^ 2 / 4) := by
    have h1 : (1 / 2 : ℝ) ^ 2 ^ F ≤ (1 / 2) ^ F :=
      pow_le_pow_of_le_one (by norm_num) (by norm_num) Nat.lt_two_pow_self.le
    have h2 : (0 : ℝ) ≤ (1 / 2) ^ 2 ^ F := by positivity
    linarith
  obtain ⟨J, hJ⟩ := pow_unbounded_of_one_lt K (lt_add_of_pos_right 1 (pow_pos hδ0 2))
  obtain ⟨I, hI'⟩ := exists_nat_ge (40 * ((count P.es + K ^ 2 * (product P.es 1 y x +
    curvature P.es P.m (fun u => w u - y u) / 4)) * (1 / μ + 1 / ν) - 2 * count P.es) + 1 + F)
  set cfg : SolveLoop.Config ℝ := ⟨true, 0, K, 1 - 1 / 10 ^ 15, true, F + 1, 1 / 10, 0, I, 2, I + J + F + 1, 1 / K ^ 2, 1,
    false⟩ with hcfg
  have hmin : SolveLoop.kMin v.sqrt cfg = 1 := by
    have e : SolveLoop.kMin v.sqrt cfg = v.sqrt 1 := by
      unfold SolveLoop.kMin
      rw [hcfg]
      norm_num
    obtain ⟨h1, h2⟩ := hv 1 zero_le_one
    rw [e]
    nlinarith
  refine ⟨cfg, δ, K, rfl, rfl, hδ0, fun big hbig factor status => ?_⟩
  obtain ⟨r, z, h1, h2, -, h3, h4, h5⟩ := C90_converges v hv hexp hs l hl hc hqr P hP hp hrows y x w hI ⟨δ, big, factor⟩ hδ0
    (by
      show 8 * (count P.es : ℝ) * δ ^ 2 ≤ 1
      rw [hδ, div_pow, one_pow, mul_one_div, div_le_one (by positivity)]
      nlinarith) cfg rfl rfl rfl (by norm_num [hcfg]) (by rw [hmin]; exact hK1) hbig (by norm_num [hcfg])
    (by norm_num [hcfg]) (by norm_num [hcfg]) le_rfl F (hF'.trans (min_le_left _ _)) (hF'.trans (min_le_right _ _))
    (by show (F : Int) < F + 1
        omega) μ ν hμ hν (by rw [hmin]; simpa using hx) (by rw [hmin]; simpa using hy)
    (by simpa [hcfg] using hI') J (by rw [hmin, mul_one]; exact hJ.le)
    (by show (I : Int) + J ≤ I + J + F + 1 - (F + 1)
        omega) status
  refine ⟨r, z, h1, h2, h3, h4, fun z' hz' => (h5 z' hz').trans (add_le_add_right ?_ _)⟩
  show (rank P.es : ℝ) / K ^ 2 ≤ ε
  have h6 : rank P.es = ε * (K - 1) := by
    rw [hK]
    field_simp
    ring
  rw [div_le_iff₀ (by positivity), h6]
  exact mul_le_mul_of_nonneg_left (by nlinarith) hε.le

/-- With a constraint other than linear inequalities, equations and quadratic costs, the line search always fails, and the
barrier parameter of the result is its lower limit, however many iterations there were. -/
theorem C90_stuck {R : Type} [Field R] [LinearOrder R] [IsStrictOrderedRing R] (v : Env R) (l : Linear R) (S : Search R)
    (P : Program R) (hb : ∃ e ∈ P.es, (∀ o w, e.item ≠ .linear o w) ∧ (∀ o, e.item ≠ .equality o) ∧
      ∀ n Q, e.item ≠ .cost n Q)
    (cfg : SolveLoop.Config R) (hline : cfg.lineSearch = true) (hmin : 0 ≤ SolveLoop.kMin v.sqrt cfg)
    (status : SolveLoop.Status) (r : Result R) (h : solveSearch v l S P cfg status = .ok r)
    (k kMax : R) (hf : r.res.final = some (k, kMax)) : k = SolveLoop.kMin v.sqrt cfg := by
  have hb' : Blocked P.es := by
    obtain ⟨⟨vars, x⟩, he, h1, h2, h3⟩ := hb
    refine ⟨_, he, ?_⟩
    cases x <;> first | trivial | exact absurd rfl (h1 _ _) | exact absurd rfl (h2 _) | exact absurd rfl (h3 _ _)
  unfold solveSearch solveSearchAt at h
  simp only at h
  by_cases h1 : ¬ (P.quadratic = false ∨ (cfg.lineSearch = true ∧ cfg.rescaling = false))
  · rw [if_pos h1] at h
    cases h
    cases hf
  rw [if_neg h1] at h
  by_cases h2 : P.es.length = 0
  · rw [if_pos h2] at h
    cases h
    cases hf
  rw [if_neg h2] at h
  by_cases h3 : (SolveLoop.clearStatus (⟨P.quadratic, P.es.length, false, none, status⟩ : SolveLoop.Prog R)).initialized =
      false ∧ cfg.mode ≠ 0
  · rw [if_pos h3] at h
    cases h
  · rw [if_neg h3] at h
    have hstart : Blocked (if cfg.mode = 0 then identity P.es else P.es) := by
      split_ifs
      · exact blocked_identity hb'
      · exact hb'
    simp only [SolveLoop.bind_eq_ok] at h
    obtain ⟨kkt, -, h⟩ := h
    cases hst : (SolveLoop.initProgram (SolveLoop.clearStatus ⟨P.quadratic, P.es.length, false, none, status⟩) cfg).stats with
    | none =>
      rw [hst] at h
      cases h
    | some stats =>
      rw [hst] at h
      simp only [SolveLoop.bind_eq_ok] at h
      obtain ⟨⟨d, q⟩, h5, h6⟩ := h
      have hnone : stats.numIter = none := by
        unfold SolveLoop.initProgram at hst
        simp only [SolveLoop.clearStatus, true_or, if_true, Option.some.injEq] at hst
        split_ifs at hst <;> exact hst ▸ rfl
      have hq := stuck_loop hline _ _ _ _ h5 ⟨hstart, hmin, le_rfl, Or.inl hnone⟩
      have hend : ∀ res : SolveLoop.Result R, SolveLoop.post cfg (SolveLoop.initProgram (SolveLoop.clearStatus
          ⟨P.quadratic, P.es.length, false, none, status⟩) cfg) q.s = .ok res → res.final = some (k, kMax) →
          k = SolveLoop.kMin v.sqrt cfg := by
        intro res h7 h8
        simp only [SolveLoop.post, SolveLoop.bind_eq_ok] at h7
        obtain ⟨n, h9, out, -, h10⟩ := h7
        cases h10
        have hk : k = q.s.k := (congrArg Prod.fst (Option.some.inj h8)).symm
        rcases hq.hit with h11 | h11
        · have h12 : q.s.stats.numIter = none := h11
          rw [h12] at h9
          cases h9
        · exact hk.trans h11
      cases d
      case fail =>
        cases h6
        cases hf
      case demand =>
        cases h6
        cases hf
      all_goals
        simp only [SolveLoop.bind_eq_ok] at h6
        obtain ⟨res, h7, es, -, h8⟩ := h6
        cases h8
        exact hend res h7 hf

/-! ### A success far from the optimum -/

/-- Minimise `-201 y` subject to `(100 - y, -y)` in the second-order cone, that is `y ≤ 50`. -/
def stuckProgram : Program ℚ :=
  ⟨1, fun _ => -201, [⟨[0], .soc (Soc.ofMatrices 1 1 (fun _ _ => 1) (fun i => if i = 0 then 100 else 0))
    ⟨⟨0, fun _ => 0⟩, ⟨0, fun _ => 0⟩⟩⟩], [[]], [⟨1, fun _ _ => 0, fun _ => 0, fun _ => 0, 0, 0⟩], false⟩

/-- Square roots, exact where they matter. -/
def stuckSqrt (x : ℚ) : ℚ :=
  if x = 0 then 0 else if x = 1 then 1 else if x = 1 / 10000 then 1 / 100 else if x = 1 / 160000 then 1 / 400 else 7

/-- The exponential matters only for the scaling points after the step. -/
def stuckEnv : Env ℚ := ⟨stuckSqrt, fun _ => 1, fun _ x => x, fun _ _ x => x, fun _ _ => fun _ _ => 0⟩

/-- The system of one equation is `4`. -/
def stuckLinear : Linear ℚ :=
  ⟨false, 0, fun _ A => if A 0 0 = 4 then some fun _ _ => 2 else none, fun _ _ x => x, fun _ => 0⟩

/-- The largest `inv_sqrt_mu` is 1000; `maximum_mu` is 10⁴, and all five iterations are final ones. -/
def stuckConfig : SolveLoop.Config ℚ :=
  ⟨true, 0, 1000, 10 ^ 4 - 1 / 10 ^ 15, true, 5, 1 / 100, 0, 1, 2, 5, 10 ^ 5, 1, false⟩

/-- What the caller sees. -/
def seen : Outcome (Result ℚ) → Option (Bool × Option (ℚ × ℚ) × Option ℚ)
  | .ok r => some (r.res.ret, r.res.final, r.array.map fun z => z 0)
  | _ => none

/-- `Solve` reports success with the point 1/4 and the value -201/4, though 50 is feasible with the value -10050 and
a gap of `2 / 1000²` was asked for. -/
theorem C90_stuck_violated :
    seen (solveSearch stuckEnv stuckLinear ⟨1, 10 ^ 9, 1⟩ stuckProgram stuckConfig ⟨false, none, false, false⟩) =
      some (true, some (1 / 100, 1000), some (1 / 4)) ∧
    -- 50 is in the cone, and so is 1/4
    (0 ≤ (100 : ℚ) - 50 ∧ (-50 : ℚ) ^ 2 ≤ (100 - 50) ^ 2) ∧ (0 ≤ (100 : ℚ) - 1 / 4 ∧ (-(1 / 4) : ℚ) ^ 2 ≤ (100 - 1 / 4) ^ 2) ∧
    stuckProgram.cost 0 * 50 + 2 / stuckConfig.invSqrtMuMax ^ 2 < stuckProgram.cost 0 * (1 / 4) - 9000 := by
  decide +kernel

/-! ### Examples -/

/-- The hypotheses of `C90_stuck`. -/
example : ∃ e ∈ stuckProgram.es, (∀ o w, e.item ≠ .linear o w) ∧ (∀ o, e.item ≠ .equality o) ∧ ∀ n Q, e.item ≠ .cost n Q :=
  ⟨_, List.mem_cons_self, fun _ _ h => (nomatch h), fun _ h => (nomatch h), fun _ _ h => (nomatch h)⟩

example : stuckConfig.lineSearch = true ∧ 0 ≤ SolveLoop.kMin stuckEnv.sqrt stuckConfig := by decide +kernel

/-- Interior points of `-1 ≤ y ≤ 1` with cost `-4/3`. -/
theorem exSearch_interior (w : Linear.Ws ℝ) : Interior (exLinear (-4 / 3) 2 w).es 1 (exLinear (-4 / 3) 2 w).b 1 (fun _ => 0)
    (fun _ r => if r = 0 then 7 / 3 else 1) (fun _ => 0) := by
  refine ⟨fun i hi r hr => ?_, fun i hi r hr => ?_, fun u hu => ?_⟩
  · have hi' : i = 0 := by
      have : i < 1 := hi
      omega
    subst hi'
    norm_num [slack, exLinear, nth, con]
  · split_ifs <;> norm_num
  · have hu' : u = 0 := by omega
    subst hu'
    norm_num [exLinear, nth, con, balance, gradients, gradient, Sup.Spec.ventry, sum_range_succ, Program.b]

theorem exSearch_polyhedral (w : Linear.Ws ℝ) : Polyhedral (exLinear (-4 / 3) 2 w).es := fun e he => Or.inl (by
  simp only [exLinear, List.mem_cons, List.not_mem_nil, or_false] at he
  subst he
  exact ⟨_, _, rfl⟩)

/-- `C90_solvable` for that program. -/
example (w : Linear.Ws ℝ) (mat : Sup.Store ℝ) (ε : ℝ) (hε : 0 < ε) :
    ∃ (cfg : SolveLoop.Config ℝ) (dmax limit : ℝ), cfg.mode = 0 ∧ cfg.lineSearch = true ∧ 0 < dmax ∧
      ∀ big, limit ≤ big → ∀ (factor : ℝ) (status : SolveLoop.Status),
        ∃ r z, solveSearch Gap.exEnv ⟨false, 1, Sup.realLlt, fun _ _ b => b, mat⟩ ⟨dmax, big, factor⟩ (exLinear (-4 / 3) 2 w) cfg status =
          .ok r ∧ r.res.ret = true ∧ r.array = some z ∧ Gap.Spec.Feasible (exLinear (-4 / 3) 2 w).es z ∧
          ∀ z', Gap.Spec.Feasible (exLinear (-4 / 3) 2 w).es z' →
            value (exLinear (-4 / 3) 2 w) z ≤ value (exLinear (-4 / 3) 2 w) z' + ε :=
  C90_solvable Gap.exEnv Gap.exEnv_sqrt rfl Iteration.ex_solves ⟨false, 1, Sup.realLlt, fun _ _ b => b, mat⟩
    Sup.realLlt_contract Sup.realLlt_complete rfl _ (exLinear_good (-4 / 3) 1 w).1 (exSearch_polyhedral w)
    (by simp [count, exLinear, con, nth]) ⟨_, _, _, exSearch_interior w⟩ ε hε

/-- The hypotheses of `C90_converges`: two rows, `dinf_upper_bound` 1/4, `inv_sqrt_mu_max` 2, twelve increases. -/
example (w : Linear.Ws ℝ) (mat : Sup.Store ℝ) (status : SolveLoop.Status) :
    ∃ r z, solveSearch Gap.exEnv ⟨false, 1, Sup.realLlt, fun _ _ b => b, mat⟩ ⟨1 / 4, 10, 1⟩ (exLinear (-4 / 3) 2 w)
      ⟨true, 0, 2, 1 - 1 / 10 ^ 15, true, 5, 1 / 10, 0, 1071, 2, 1088, 1 / 4, 1, false⟩ status = .ok r ∧
      r.res.ret = true ∧ r.array = some z := by
  have hmin : SolveLoop.kMin Gap.exEnv.sqrt
      (⟨true, 0, 2, 1 - 1 / 10 ^ 15, true, 5, 1 / 10, 0, 1071, 2, 1088, 1 / 4, 1, false⟩ : SolveLoop.Config ℝ) = 1 := by
    have e : SolveLoop.kMin Gap.exEnv.sqrt
        (⟨true, 0, 2, 1 - 1 / 10 ^ 15, true, 5, 1 / 10, 0, 1071, 2, 1088, 1 / 4, 1, false⟩ : SolveLoop.Config ℝ) =
          Real.sqrt 1 := by
      unfold SolveLoop.kMin
      norm_num [Gap.exEnv]
    rw [e, Real.sqrt_one]
  have hcount : count (exLinear (-4 / 3) 2 w).es = 2 := by simp [count, exLinear, con, nth]
  obtain ⟨r, z, h1, h2, -, h3, -⟩ := C90_converges Gap.exEnv Gap.exEnv_sqrt rfl Iteration.ex_solves
    ⟨false, 1, Sup.realLlt, fun _ _ b => b, mat⟩ Sup.realLlt_contract Sup.realLlt_complete rfl _ (exLinear_good (-4 / 3) 1 w).1
    (exSearch_polyhedral w) (by rw [hcount]; norm_num) _ _ _ (exSearch_interior w) ⟨1 / 4, 10, 1⟩ (by norm_num)
    (by rw [hcount]; norm_num)
    ⟨true, 0, 2, 1 - 1 / 10 ^ 15, true, 5, 1 / 10, 0, 1071, 2, 1088, 1 / 4, 1, false⟩ rfl rfl rfl (by norm_num)
    (by rw [hmin]; norm_num) (by norm_num) (by norm_num) (by norm_num) (by norm_num) (by norm_num) 3 (by norm_num)
    (by norm_num) (by norm_num) 1 1 one_pos one_pos
    (fun i hi r hr => by
      rw [hmin, one_mul]
      split_ifs <;> norm_num)
    (fun i hi r hr => by
      rw [hmin, one_mul]
      have hi' : i = 0 := by
        have : i < 1 := hi
        omega
      subst hi'
      norm_num [slack, exLinear, nth, con])
    (by
      have e1 : product (exLinear (-4 / 3) 2 w).es 1 (fun _ => 0) (fun _ r => if r = 0 then 7 / 3 else 1) = 10 / 3 := by
        norm_num [product, slack, exLinear, nth, con, sum_range_succ]
      have e2 : curvature (exLinear (-4 / 3) 2 w).es 1 (fun _ => (0 : ℝ) - 0) = 0 := by
        simp [curvature]
      have e3 : curvature (exLinear (-4 / 3) 2 w).es (exLinear (-4 / 3) 2 w).m (fun _ => (0 : ℝ) - 0) = 0 := e2
      rw [hcount, e1, e3]
      norm_num) 12 (by rw [hmin]; norm_num) (by norm_num) status
  exact ⟨r, z, h1, h2, h3⟩

/-- The loop takes part in comparisons of doubles only: the error that it keeps exceeds the tolerance where the computed one
does, which is infinite if the product of the slack and the dual vector is zero, and otherwise not, in particular if it is
NaN. -/
theorem C90_comparison {R : Type} [Field R] [LinearOrder R] [IsStrictOrderedRing R] (tol : R) (e : Ext R) :
    tol < comparable tol e ↔ Ext.lt (.fin tol) e = true := by
  cases e <;> simp [comparable, Ext.lt]

/-- An infinite error and NaN. -/
example : (1 : ℚ) < comparable 1 .pinf ∧ ¬ (1 : ℚ) < comparable 1 .nan := by decide +kernel

end Verif.Whole
