import Verif.Lemmas.MatrixStart
import Verif.Props.MatrixSolve

/-!
# C99: solving semidefinite programs from the identity

C96 assumes that the identity is near the central path.  Here it need not be: the program and its dual have interior points,
and the initial centering, whose length is bounded by data of these points, brings the iterates there.  What is assumed instead
is that no step of the initial centering is too long, which is about the estimate of the norm (F42), and that the first barrier
parameter is below the largest one; otherwise the loop could end on an estimate that is too small.  Inequalities of order one
need no assumption.
-/

namespace Verif.MatrixCentering

open Finset Verif.Dual Whole Whole.Spec Iteration.Spec
open Spec (ConeProgram Short RealCones SameUpdate unknowns Point Strict DualAbove SlackAbove products)

/-- Convergence.  `y` and `X` are interior points of the program and of its dual, above `ν` and `μ` times the identity.
`divergence_upper_bound` is small enough for the rank and `maximum_mu` is not huge, `F` final and `initCold` initial centering
steps suffice, and after `J` increases of the barrier parameter by the factor `1 + τ` the largest one is reached, where
`16 τ² ≤ divergence_upper_bound`.  The first parameter that the divergence chooses is below the largest one, and no step of the
initial centering with it is too long as long as the sum of squares of the direction exceeds two. -/
theorem C99_converges (v : Env ℝ) (hv : ∀ x, 0 ≤ x → SolveLoop.Spec.SqrtAt v.sqrt x) (hexp : v.exp = Real.exp)
    (ht : Lmi.Spec.TriEigenvalues v.tri) (hs : ∀ n, MatrixExp.Spec.Solves (v.solve n)) (hst : Starts v)
    (l : Whole.Linear ℝ) (hl : Dense.Spec.LltContract l.llt)
    (hc : Dense.Spec.LltComplete l.llt) (hqr : l.useQr = false) (P : Program ℝ) (hP : ConeProgram P) (hsame : SameUpdate P.es)
    (hcost : NoCosts P.es) (hquad : P.quadratic = false) (hrank : 1 ≤ rank P.es)
    (S : Search ℝ) (hS : 0 < S.factor) (hsmall : S.factor * rank P.es ≤ 1 / 32)
    (cfg : SolveLoop.Config ℝ) (hmode : cfg.mode = 0) (hline : cfg.lineSearch = false) (hplain : cfg.rescaling = false)
    (hmu : 0 < 1 / 10 ^ 15 + cfg.maximumMu) (hlow : 1 / 24000 ≤ SolveLoop.kMin v.sqrt cfg)
    (hlt : SolveLoop.kMin v.sqrt cfg < cfg.invSqrtMuMax)
    (hkkt : 0 ≤ cfg.kktTol) (htol : 0 ≤ cfg.finalTol) (hthr : 1 / cfg.invSqrtMuMax ^ 2 ≤ cfg.infeasThreshold)
    (F : Nat) (hfine : 1 / 2 * (1 / 2) ^ 2 ^ F ≤ cfg.finalTol ^ 2)
    (hclose : 1 / 2 * (1 / 2) ^ 2 ^ F ≤ 2 * (S.factor * rank P.es) ^ 2) (hF : (F : Int) < cfg.finalSteps)
    (y : Nat → ℝ) (X : Nat → Point) (w : Nat → ℝ) (hI : Strict (startEs P) P.m P.b 1 y X w)
    (μ ν : ℝ) (hμ : 0 < μ) (hν : 0 < ν) (hX : ∀ i < P.es.length, DualAbove μ (nth (startEs P) i).item (X i))
    (hy : ∀ i < P.es.length, SlackAbove ν (nth (startEs P) i).item (nth (startEs P) i).vars.length 1
      (unknowns (nth (startEs P) i) y))
    (hinit : 40 * ((rank P.es + cfg.invSqrtMuMax ^ 2 * products (startEs P) 1 y X) *
      (1 / (SolveLoop.kMin v.sqrt cfg * μ) + 1 / (SolveLoop.kMin v.sqrt cfg * ν)) - 2 * rank P.es) + 1 + F ≤ cfg.initCold)
    (hpos : 0 < cfg.initCold)
    (hfirst : ∀ kkt f solver d, Sup.kktInit (P.es.map Entry.vars) P.duals = .ok kkt →
      Iteration.factorize v (setupOf l P kkt) ⟨startEs P, P.sys, l.mat⟩ = .ok f → f.solver = some solver →
      divergenceMu v S (setupOf l P kkt) (startEs P) f.r solver = .ok d → d < cfg.invSqrtMuMax)
    (hb : ∀ kkt k, Sup.kktInit (P.es.map Entry.vars) P.duals = .ok kkt → SolveLoop.kMin v.sqrt cfg ≤ k → k < cfg.invSqrtMuMax →
      ∀ (X : Nat → Iteration.State ℝ) (ST : Nat → Iteration.Step ℝ) (n : Nat), X 0 = ⟨startEs P, P.sys, l.mat⟩ →
      (∀ j ≤ n, Iteration.iterate v (setupOf l P kkt) k (X j) = .ok (some (ST j, X (j + 1)))) → 2 < (ST n).normsqrd →
      ∀ e ∈ (X n).es, Short k (SolveLoop.stepSize (ST n).norm) (unknowns e (ST n).y) e.item)
    (τ : ℝ) (hτ : 0 ≤ τ) (hτS : 16 * τ ^ 2 ≤ S.factor)
    (J : Nat) (hJ : cfg.invSqrtMuMax ≤ (1 + τ) ^ J * SolveLoop.kMin v.sqrt cfg)
    (hiter : cfg.initCold + J ≤ cfg.maxIter - cfg.finalSteps) (status : SolveLoop.Status) :
    ∃ r z, Whole.solveSearch v l S P cfg status = .ok r ∧ r.res.ret = true ∧
      r.res.final = some (cfg.invSqrtMuMax, cfg.invSqrtMuMax) ∧ r.array = some z ∧ Gap.Spec.Feasible P.es z ∧
      ∀ z', Gap.Spec.Feasible P.es z' → value P z ≤ value P z' + rank P.es / cfg.invSqrtMuMax ^ 2 := by
  have hr1 : (1 : ℝ) ≤ rank P.es := by exact_mod_cast hrank
  have hB : 0 < S.factor * rank P.es := mul_pos hS (by linarith)
  exact matrices_start ht hs hst hl hc hqr hP hsame hcost hquad hrank hS hsmall
    ⟨hv, hexp, hmode, Or.inr rfl, hplain, hkkt, Whole.kMin_pos hv hmu, hlt.le, htol, hfine, by nlinarith, hF⟩ hline hlow hlt
    hτ hτS hthr hclose hI hμ hν hX hy hinit hpos hfirst hb hJ hiter status

/-- Every semidefinite program with interior points can be solved to any accuracy, if no step of the initial centering is too
long: there are options for which `Solve` reports success and the array holds a feasible point whose value is optimal up to
`ε`, whatever the status block and the options of the line search are. -/
theorem C99_solvable (v : Env ℝ) (hv : ∀ x, 0 ≤ x → SolveLoop.Spec.SqrtAt v.sqrt x) (hexp : v.exp = Real.exp)
    (ht : Lmi.Spec.TriEigenvalues v.tri) (hs : ∀ n, MatrixExp.Spec.Solves (v.solve n)) (hst : Starts v)
    (l : Whole.Linear ℝ) (hl : Dense.Spec.LltContract l.llt)
    (hc : Dense.Spec.LltComplete l.llt) (hqr : l.useQr = false) (P : Program ℝ) (hP : ConeProgram P) (hsame : SameUpdate P.es)
    (hcost : NoCosts P.es) (hquad : P.quadratic = false) (hrank : 1 ≤ rank P.es)
    (hI : ∃ y X w, Strict (startEs P) P.m P.b 1 y X w)
    (hb : ∀ kkt k, Sup.kktInit (P.es.map Entry.vars) P.duals = .ok kkt → 1 ≤ k →
      ∀ (X : Nat → Iteration.State ℝ) (ST : Nat → Iteration.Step ℝ) (n : Nat), X 0 = ⟨startEs P, P.sys, l.mat⟩ →
      (∀ j ≤ n, Iteration.iterate v (setupOf l P kkt) k (X j) = .ok (some (ST j, X (j + 1)))) → 2 < (ST n).normsqrd →
      ∀ e ∈ (X n).es, Short k (SolveLoop.stepSize (ST n).norm) (unknowns e (ST n).y) e.item)
    (ε : ℝ) (hε : 0 < ε) :
    ∃ (cfg : SolveLoop.Config ℝ) (factor : ℝ), cfg.mode = 0 ∧ cfg.lineSearch = false ∧ 0 < factor ∧
      ∀ (dmax big : ℝ) (status : SolveLoop.Status),
        ∃ r z, Whole.solveSearch v l ⟨dmax, big, factor⟩ P cfg status = .ok r ∧ r.res.ret = true ∧ r.array = some z ∧
          Gap.Spec.Feasible P.es z ∧ ∀ z', Gap.Spec.Feasible P.es z' → value P z ≤ value P z' + ε := by
  obtain ⟨y, X, w, hI⟩ := hI
  obtain ⟨hN, kkt, hk, hr⟩ := start_ready hP hl hc hqr
  have hlen : (startEs P).length = P.es.length := by simp [startEs, Whole.identity]
  obtain ⟨⟨μ, hμ, hX⟩, ν, hν, hy⟩ := strict_above (conicShape_of hr) (by
    show Strict (startEs P) P.N P.b 1 y X w
    rw [hN]
    exact hI)
  have hr1 : (1 : ℝ) ≤ rank P.es := by exact_mod_cast hrank
  set φ : ℝ := 1 / (32 * rank P.es) with hφ
  have hφ0 : 0 < φ := by positivity
  have hφn : φ * rank P.es = 1 / 32 := by
    rw [hφ]
    field_simp
  have hφ1 : φ ≤ 1 / 32 := by nlinarith
  -- the first barrier parameter
  obtain ⟨D, hD0, hD⟩ : ∃ D, 0 ≤ D ∧ ∀ dmax big kkt f solver d, Sup.kktInit (P.es.map Entry.vars) P.duals = .ok kkt →
      Iteration.factorize v (setupOf l P kkt) ⟨startEs P, P.sys, l.mat⟩ = .ok f → f.solver = some solver →
      divergenceMu v ⟨dmax, big, φ⟩ (setupOf l P kkt) (startEs P) f.r solver = .ok d → d ≤ D := by
    by_cases hex : ∃ f solver d, Iteration.factorize v (setupOf l P kkt) ⟨startEs P, P.sys, l.mat⟩ = .ok f ∧
        f.solver = some solver ∧ divergenceMu v ⟨0, 0, φ⟩ (setupOf l P kkt) (startEs P) f.r solver = .ok d
    · obtain ⟨f, solver, d, h1, h2, h3⟩ := hex
      refine ⟨|d|, abs_nonneg d, fun dmax big kkt' f' solver' d' g1 g2 g3 g4 => ?_⟩
      rw [hk, Outcome.ok.injEq] at g1
      subst g1
      rw [h1, Outcome.ok.injEq] at g2
      subst g2
      rw [h2, Option.some.injEq] at g3
      subst g3
      have g5 : divergenceMu v ⟨0, 0, φ⟩ (setupOf l P kkt) (startEs P) f.r solver = .ok d' := g4
      rw [h3, Outcome.ok.injEq] at g5
      exact g5 ▸ le_abs_self d
    · refine ⟨0, le_rfl, fun dmax big kkt' f' solver' d' g1 g2 g3 g4 => (hex ?_).elim⟩
      rw [hk, Outcome.ok.injEq] at g1
      subst g1
      exact ⟨f', solver', d', g2, g3, g4⟩
  set K : ℝ := 2 + D + rank P.es / ε with hK
  have hd0 : (0 : ℝ) ≤ rank P.es / ε := by positivity
  have hK1 : 1 < K := by linarith
  obtain ⟨F, hF⟩ := exists_pow_lt_of_lt_one (show 0 < (1 / 512 : ℝ) by norm_num)
    (show (1 / 2 : ℝ) < 1 by norm_num)
  have hF' : (1 / 2 : ℝ) * (1 / 2) ^ 2 ^ F ≤ 1 / 512 := by
    have h1 : (1 / 2 : ℝ) ^ 2 ^ F ≤ (1 / 2) ^ F :=
      pow_le_pow_of_le_one (by norm_num) (by norm_num) Nat.lt_two_pow_self.le
    have h2 : (0 : ℝ) ≤ (1 / 2) ^ 2 ^ F := by positivity
    linarith
  obtain ⟨J, hJ⟩ := pow_unbounded_of_one_lt K (lt_add_of_pos_right 1 hφ0)
  obtain ⟨I, hI'⟩ := exists_nat_ge (40 * ((rank P.es + K ^ 2 * products (startEs P) 1 y X) * (1 / (1 * μ) + 1 / (1 * ν)) -
    2 * rank P.es) + 1 + F)
  set cfg : SolveLoop.Config ℝ := ⟨true, 0, K, 1 - 1 / 10 ^ 15, false, F + 1, 1 / 10, 0, I + 1, 2, I + 1 + J + F + 1, 1 / K ^ 2,
    1, false⟩ with hcfg
  have hmin : SolveLoop.kMin v.sqrt cfg = 1 := by
    have e : SolveLoop.kMin v.sqrt cfg = v.sqrt 1 := by
      unfold SolveLoop.kMin
      rw [hcfg]
      norm_num
    obtain ⟨h1, h2⟩ := hv 1 zero_le_one
    rw [e]
    nlinarith
  refine ⟨cfg, φ, rfl, rfl, hφ0, fun dmax big status => ?_⟩
  obtain ⟨r, z, h1, h2, -, h3, h4, h5⟩ := C99_converges v hv hexp ht hs hst l hl hc hqr P hP hsame hcost hquad hrank
    ⟨dmax, big, φ⟩ hφ0 hφn.le cfg rfl rfl rfl (by norm_num [hcfg]) (by rw [hmin]; norm_num) (by rw [hmin]; exact hK1)
    (by norm_num [hcfg]) (by norm_num [hcfg]) le_rfl F (hF'.trans (by norm_num [hcfg])) (hF'.trans (by
      show (1 / 512 : ℝ) ≤ 2 * (φ * rank P.es) ^ 2
      rw [hφn]
      norm_num))
    (by show (F : Int) < F + 1
        omega) y X w hI μ ν hμ hν (fun i hi => hX i (hlen.symm ▸ hi)) (fun i hi => hy i (hlen.symm ▸ hi)) (by
      rw [hmin]
      have : (((I : Int) + 1 : Int) : ℝ) = (I : ℝ) + 1 := by push_cast; ring
      show 40 * ((rank P.es + K ^ 2 * products (startEs P) 1 y X) * (1 / (1 * μ) + 1 / (1 * ν)) -
        2 * rank P.es) + 1 + F ≤ (((I : Int) + 1 : Int) : ℝ)
      rw [this]
      linarith) (by
      show (0 : Int) < I + 1
      omega) (fun kkt' f solver d g1 g2 g3 g4 => by
      have := hD dmax big kkt' f solver d g1 g2 g3 g4
      show d < K
      linarith) (fun kkt' k g1 g2 _ => hb kkt' k g1 (hmin ▸ g2)) φ hφ0.le (by
      show 16 * φ ^ 2 ≤ φ
      nlinarith) J (by rw [hmin, mul_one]; exact hJ.le)
    (by show (I + 1 : Int) + J ≤ I + 1 + J + F + 1 - (F + 1)
        omega) status
  refine ⟨r, z, h1, h2, h3, h4, fun z' hz' => (h5 z' hz').trans (add_le_add le_rfl ?_)⟩
  show (rank P.es : ℝ) / K ^ 2 ≤ ε
  rw [div_le_iff₀ (by positivity)]
  have h6 : (rank P.es : ℝ) / ε ≤ K ^ 2 := by nlinarith
  rw [div_le_iff₀ hε] at h6
  linarith

/-- Matrix inequalities have order one. -/
def SmallOrder : Item ℝ → Prop
  | .lmi m _ _ => m = 1
  | .hermitian _ m _ _ _ => m = 1
  | _ => True

/-- A Hermitian matrix of order one is a real number. -/
theorem real_of_hermitian {d : Nat} [NeZero d] (hD : Hyper.Spec.Dim d) {X : HermLmi.HMat d 1 ℝ} (hX : Hyper.Spec.Hermitian X) :
    Hyper.lmat X = X 0 0 0 • 1 := by
  have h1 : X = Hyper.scalarMultiply (Hyper.identity d) (X 0 0 0) := by
    funext c
    ext i j
    obtain rfl := Subsingleton.elim i 0
    obtain rfl := Subsingleton.elim j 0
    by_cases hc : c.1 = 0
    · obtain rfl : c = 0 := Fin.ext hc
      simp [Hyper.scalarMultiply, Hyper.identity]
    · have := hX c 0 0
      simp only [hc, if_false] at this
      simp only [Hyper.scalarMultiply, Hyper.identity, hc, if_false, Matrix.zero_apply, zero_mul]
      linarith
  have h2 := congrArg Hyper.lmat h1
  rwa [Hyper.lmat_scalar, Hyper.lmat_identity hD] at h2

/-- For matrix inequalities of order one the reported norm is exact. -/
theorem small_order_bounded {v : Env ℝ} (hv : ∀ x, 0 ≤ x → SolveLoop.Spec.SqrtAt v.sqrt x)
    (ht : Lmi.Spec.TriEigenvalues v.tri) (hst : Starts v) {c A B : ℝ} {N : Nat} {y : Nat → ℝ} {es es' : List (Entry ℝ)}
    (hg : ∀ e ∈ es, Gap.Spec.Good e N) (h1 : ∀ e ∈ es, SmallOrder e.item)
    (hp : Dual.prepareStep v c N y es = .ok (es', A, B)) : ∀ e ∈ es, Gap.Spec.Bounded c A (unknowns e y) e.item := by
  obtain ⟨-, β, -, hβ⟩ := Gap.prepareLoop_inv es hp
  intro e he
  obtain ⟨i, hi, rfl⟩ := List.getElem_of_mem he
  obtain ⟨x', n, h2, h3⟩ := hβ i _ (List.getElem?_eq_getElem hi)
  have h4 := h1 _ he
  have hgood := hg _ he
  revert h2 h4 hgood
  generalize es[i] = e
  obtain ⟨vars, x⟩ := e
  cases x with
  | lmi m o w =>
    intro h2 h4 _
    obtain rfl : m = 1 := h4
    intro μ hμ
    simp only [Item.prepareStep, SolveLoop.bind_eq_ok, Outcome.ok.injEq, Prod.mk.injEq] at h2
    obtain ⟨⟨w', n', b⟩, h5, -, -, -⟩ := h2
    obtain ⟨-, rfl, ⟨i, hn⟩, -⟩ := Lmi.prepareStep_inv h5
    have hn' : n = some |1 + (w.W * -Lmi.Spec.slack o c fun j => y (vars.getD j 0)) 0 0| := by
      rw [hn]
      simp [Lanczos.approxEigenvalues, List.finRange_succ, Lmi.extremes]
    refine le_trans (le_of_eq ?_) (h3 _ hn')
    obtain ⟨u, hu, he⟩ := hμ
    have := congrFun he 0
    simp only [Matrix.mulVec, dotProduct, univ_unique, Fin.default_eq_zero, sum_singleton, Pi.smul_apply,
      smul_eq_mul] at this
    have hu0 : u 0 ≠ 0 := fun h0 => hu (funext fun j => by
      obtain rfl := Subsingleton.elim j 0
      exact h0)
    have hμ : (w.W * Lmi.Spec.slack o c fun j => y (vars.getD j 0)) 0 0 = μ := mul_right_cancel₀ hu0 this
    rw [Matrix.mul_neg, Matrix.neg_apply, hμ, sub_eq_add_neg]
  | hermitian d m hd o w =>
    intro h2 h4 hgood
    obtain rfl : m = 1 := h4
    obtain ⟨-, h4, ho, hW⟩ := hgood.2.2
    intro C hC μ hμ
    change HermLmi.Spec.Eigenvalue (Hyper.multiply w.W (HermLmi.Spec.slack o.mats C c fun j => y (vars.getD j 0))) μ at hμ
    simp only [Item.prepareStep, SolveLoop.bind_eq_ok, Outcome.ok.injEq, Prod.mk.injEq] at h2
    obtain ⟨⟨w', n', b⟩, h5, -, rfl, -⟩ := h2
    obtain ⟨C', hC', -, -, g1, g2, -⟩ := HermLmi.prepareStep_inv h5
    rw [hC] at hC'
    cases hC'
    set S := HermLmi.Spec.slack o.mats C c fun j => y (vars.getD j 0) with hS
    have hSh : Hyper.Spec.Hermitian S := HermLmi.hermitian_slack hC ho c _
    have hSh' := HermLmi.hermitian_scalar hSh (-1)
    -- there is only one eigenvalue
    have huniq : ∀ μ', HermLmi.Spec.Eigenvalue (Hyper.multiply w.W (Hyper.scalarMultiply S (-1))) μ' → μ' = -μ := by
      have hD := Hyper.dim_of_assoc h4
      have hval : ∀ a : ℝ, ∀ ν, MatrixExp.Spec.Eigenvalue (a • (1 : Matrix (Fin d × Fin 1) (Fin d × Fin 1) ℝ)) ν → ν = a := by
        rintro a ν ⟨u, hu, he⟩
        rw [Matrix.smul_mulVec, Matrix.one_mulVec] at he
        obtain ⟨k, hk⟩ := Function.ne_iff.1 hu
        exact (mul_right_cancel₀ hk (congrFun he k)).symm
      intro μ' hμ'
      rw [HermLmi.eigenvalue_lmat, Hyper.lmat_multiply h4, real_of_hermitian hD hW.1, real_of_hermitian hD hSh, smul_mul_smul_comm,
        one_mul] at hμ
      rw [HermLmi.eigenvalue_lmat, Hyper.lmat_multiply h4, Hyper.lmat_scalar, real_of_hermitian hD hW.1, real_of_hermitian hD hSh,
        smul_smul, smul_mul_smul_comm, one_mul] at hμ'
      rw [hval _ _ hμ, hval _ _ hμ']
      ring
    obtain ⟨q, hq⟩ := (HermLmi.C61_defined h4 (sqrt := v.sqrt) (fun x hx => hv x hx.le) w.W (Hyper.scalarMultiply S (-1)) hW
      hSh' (v.start d 1)).2 ⟨hst d 1 (by omega) one_pos, Or.inl (by norm_num)⟩
    obtain ⟨g3, g4⟩ := HermLmi.C61_within h4 (fun x hx => hv x hx.le) ht w.W _ hW hSh' (-μ) (-μ)
      (fun μ' h => by rw [huniq μ' h]; exact ⟨le_rfl, le_rfl⟩) (v.start d 1) _ q hq
    have hall : ∀ t ∈ v.tri q.1 q.2, t = -μ := fun t h => le_antisymm (g4 t h).2 (g4 t h).1
    obtain ⟨a, ha⟩ := Option.ne_none_iff_exists'.1 fun h => g3 (List.min?_eq_none_iff.1 h)
    obtain ⟨b', hb'⟩ := Option.ne_none_iff_exists'.1 fun h => g3 (List.max?_eq_none_iff.1 h)
    have hx : HermLmi.extremes v.tri (HermLmi.lanczos v.sqrt w'.WS w.W (v.start d 1) (1 / 2 + 1)) = some (a, b') := by
      rw [g1, hq]
      simp [HermLmi.extremes, ha, hb']
    obtain ⟨l', hl', k1, k2, -⟩ := HermLmi.extremes_some hx
    rw [g1, hq, Option.some.injEq] at hl'
    subst hl'
    have k1' : a = -μ := hall _ k1
    have k2' : b' = -μ := hall _ k2
    rw [hx, k1', k2'] at g2
    simp only [Option.map_some, ite_self] at g2
    have := h3 _ g2
    rwa [← sub_eq_add_neg] at this
  | _ => exact fun _ _ _ => trivial

/-- Iterations keep the orders. -/
theorem small_order_next {v : Env ℝ} {p : Iteration.Setup ℝ} {k : ℝ} {x x' : Iteration.State ℝ} {st : Iteration.Step ℝ}
    (h : Iteration.iterate v p k x = .ok (some (st, x'))) (h1 : ∀ e ∈ x.es, SmallOrder e.item) :
    ∀ e ∈ x'.es, SmallOrder e.item := by
  obtain ⟨-, -, -, -, es', -, -, -, -, -, -, -, h3, h4, -⟩ := Iteration.iterate_ok h
  have hall := Gap.prepare_take x.es h3 h4
  obtain ⟨hlen, hget⟩ := List.forall₂_iff_get.1 hall
  intro e he
  obtain ⟨i, hi, rfl⟩ := List.getElem_of_mem he
  have hi' : i < x.es.length := hlen ▸ hi
  obtain ⟨-, y, n, β, h5, h6⟩ := hget i hi' hi
  simp only [List.get_eq_getElem] at h5 h6
  have h7 := h1 _ (List.getElem_mem hi')
  revert h5 h6 h7
  generalize x'.es[i].item = z'
  generalize x.es[i] = e'
  obtain ⟨vars, z⟩ := e'
  cases z with
  | linear o' w' =>
    intro h5 h6 _
    simp only [Item.prepareStep, SolveLoop.bind_eq_ok] at h5
    obtain ⟨⟨w', q⟩, -, h⟩ := h5
    cases q with
    | none => cases h
    | some q =>
      cases h
      cases h6
      trivial
  | cost m' Q =>
    intro h5 h6 _
    cases h5
    cases h6
    trivial
  | soc o' w' =>
    intro h5 h6 _
    simp only [Item.prepareStep, SolveLoop.bind_eq_ok, Outcome.ok.injEq, Prod.mk.injEq] at h5
    obtain ⟨q, -, rfl, -⟩ := h5
    simp only [Item.takeStep, SolveLoop.bind_eq_ok, Outcome.ok.injEq] at h6
    obtain ⟨q', -, rfl⟩ := h6
    trivial
  | _ =>
    intro h5 h6 h7
    simp only [Item.prepareStep, SolveLoop.bind_eq_ok, Outcome.ok.injEq, Prod.mk.injEq] at h5
    obtain ⟨q, -, rfl, -⟩ := h5
    cases h6
    exact h7

/-- The initial centering of programs whose matrix inequalities have order one. -/
theorem small_order_run {v : Env ℝ} (hv : ∀ x, 0 ≤ x → SolveLoop.Spec.SqrtAt v.sqrt x) (hexp : v.exp = Real.exp)
    (ht : Lmi.Spec.TriEigenvalues v.tri) (hs : ∀ n, MatrixExp.Spec.Solves (v.solve n)) (hst : Starts v)
    {p : Iteration.Setup ℝ} {duals : List (List Nat)} {k : ℝ} {X : Nat → Iteration.State ℝ} {ST : Nat → Iteration.Step ℝ}
    {n : Nat} (hr : Ready p duals (X 0))
    (hX : ∀ j ≤ n, Iteration.iterate v p k (X j) = .ok (some (ST j, X (j + 1))))
    (h1 : ∀ e ∈ (X 0).es, SmallOrder e.item) :
    ∀ e ∈ (X n).es, Short (k * p.cs) (SolveLoop.stepSize (ST n).norm) (unknowns e (ST n).y) e.item := by
  have he : ∀ x, 0 < v.exp x := fun x => hexp ▸ Real.exp_pos x
  have hbound : ∀ j ≤ n, Ready p duals (X j) → (∀ e ∈ (X j).es, SmallOrder e.item) →
      ∀ e ∈ (X j).es, Gap.Spec.Bounded (k * p.cs) (ST j).norm (unknowns e (ST j).y) e.item := fun j hj h2 h3 => by
    obtain ⟨-, -, -, -, es', -, -, -, -, -, -, -, h10, -⟩ := Iteration.iterate_ok (hX j hj)
    exact small_order_bounded hv ht hst h2.good h3 h10
  have hone : ∀ j ≤ n, Ready p duals (X j) ∧ ∀ e ∈ (X j).es, SmallOrder e.item := by
    intro j
    induction j with
    | zero => exact fun _ => ⟨hr, h1⟩
    | succ j ih =>
      intro hj
      obtain ⟨h2, h3⟩ := ih (by omega)
      have h4 := hX j (by omega)
      exact ⟨(Iteration.ready_next hv he hs h2 h4 (Centering.unregularized hv he h2 h4)
        fun e he _ => hbound j (by omega) h2 h3 e he).1, small_order_next h4 h3⟩
  obtain ⟨h2, h3⟩ := hone n le_rfl
  exact fun e he => C97_short _ _ _ _ (hbound n le_rfl h2 h3 e he)

/-- Programs whose matrix inequalities have order one, beside linear inequalities, second-order and quadratic cones if they are
real: interior points suffice. -/
theorem C99_order_one (v : Env ℝ) (hv : ∀ x, 0 ≤ x → SolveLoop.Spec.SqrtAt v.sqrt x) (hexp : v.exp = Real.exp)
    (ht : Lmi.Spec.TriEigenvalues v.tri) (hs : ∀ n, MatrixExp.Spec.Solves (v.solve n)) (hst : Starts v)
    (l : Whole.Linear ℝ) (hl : Dense.Spec.LltContract l.llt)
    (hc : Dense.Spec.LltComplete l.llt) (hqr : l.useQr = false) (P : Program ℝ) (hP : ConeProgram P) (hsame : SameUpdate P.es)
    (hone : ∀ e ∈ P.es, (∀ m o w, e.item = .lmi m o w → m = 1) ∧ ∀ d m hd o w, e.item = .hermitian d m hd o w → m = 1)
    (hcost : NoCosts P.es) (hquad : P.quadratic = false) (hrank : 1 ≤ rank P.es)
    (hI : ∃ y X w, Strict (startEs P) P.m P.b 1 y X w) (ε : ℝ) (hε : 0 < ε) :
    ∃ (cfg : SolveLoop.Config ℝ) (factor : ℝ), cfg.mode = 0 ∧ cfg.lineSearch = false ∧ 0 < factor ∧
      ∀ (dmax big : ℝ) (status : SolveLoop.Status),
        ∃ r z, Whole.solveSearch v l ⟨dmax, big, factor⟩ P cfg status = .ok r ∧ r.res.ret = true ∧ r.array = some z ∧
          Gap.Spec.Feasible P.es z ∧ ∀ z', Gap.Spec.Feasible P.es z' → value P z ≤ value P z' + ε := by
  refine C99_solvable v hv hexp ht hs hst l hl hc hqr P hP hsame hcost hquad hrank hI
    (fun kkt k hkkt _ X ST n h0 hX _ => ?_) ε hε
  have h1 : ∀ e ∈ startEs P, SmallOrder e.item := by
    intro e he
    obtain ⟨e', he', rfl⟩ := List.mem_map.1 he
    obtain ⟨h2, h3⟩ := hone e' he'
    cases hi : e'.item <;> rw [hi] at h2 h3 <;> simp only [Whole.setIdentity, SmallOrder]
    · exact h2 _ _ _ rfl
    · exact h3 _ _ _ _ _ rfl
  obtain ⟨-, kkt', hk', hr⟩ := start_ready hP hl hc hqr
  obtain rfl : kkt = kkt' := Outcome.ok.inj (hkkt.symm.trans hk')
  have := small_order_run hv hexp ht hs hst (duals := P.duals) (by rw [h0]; exact hr) hX (by rw [h0]; exact h1)
  have e : k * (setupOf l P kkt).cs = k := mul_one k
  rwa [e] at this

/-! ### Examples -/

theorem exInterval_real (w w' : Lmi.Ws 1 ℝ) : RealCones (exInterval w w').es ∧ NoCosts (exInterval w w').es ∧
    (∀ e ∈ (exInterval w w').es, (∀ m o w, e.item = .lmi m o w → m = 1) ∧
      ∀ d m hd o w, e.item = .hermitian d m hd o w → m = 1) ∧ rank (exInterval w w').es = 2 := by
  refine ⟨fun e he d m hd o w₁ h => ?_, fun e he n Q h => ?_, fun e he => ⟨fun m o w₁ h => ?_, fun d m hd o w₁ h => ?_⟩,
    by simp [Dual.rank, exInterval, Item.rank]⟩ <;>
    simp only [exInterval, List.mem_cons, List.not_mem_nil, or_false] at he <;> rcases he with rfl | rfl <;> cases h <;> rfl

/-- `C99_order_one` for minimising `-(40/9) y` such that `(1 - y)` and `(1 + y)` are positive semidefinite; the first direction
is long. -/
example (w w' : Lmi.Ws 1 ℝ) (mat : Sup.Store ℝ) (ε : ℝ) (hε : 0 < ε) :
    ∃ (tri : List ℝ → List ℝ → List ℝ) (cfg : SolveLoop.Config ℝ) (factor : ℝ), Lmi.Spec.TriEigenvalues tri ∧
      cfg.mode = 0 ∧ cfg.lineSearch = false ∧ 0 < factor ∧ ∀ (dmax big : ℝ) (status : SolveLoop.Status),
        ∃ r z, Whole.solveSearch (exMatEnv tri) ⟨false, 1, Sup.realLlt, fun _ _ b => b, mat⟩ ⟨dmax, big, factor⟩
          (exInterval w w') cfg status = .ok r ∧ r.res.ret = true ∧ r.array = some z ∧
          Gap.Spec.Feasible (exInterval w w').es z ∧ ∀ z', Gap.Spec.Feasible (exInterval w w').es z' →
            value (exInterval w w') z ≤ value (exInterval w w') z' + ε := by
  obtain ⟨tri, ht⟩ := exists_tri
  obtain ⟨h1, h2, h3, h4⟩ := exInterval_real w w'
  obtain ⟨g1, -, -⟩ := exInterval_strict w w'
  have hb : (exInterval w w').b 0 = 40 / 9 := by norm_num [Whole.Program.b, exInterval]
  obtain ⟨cfg, factor, e1, e2, e3, e4⟩ := C99_order_one (exMatEnv tri) Gap.exEnv_sqrt rfl ht Iteration.ex_solves (exMatEnv_starts tri)
    ⟨false, 1, Sup.realLlt, fun _ _ b => b, mat⟩ Sup.realLlt_contract Sup.realLlt_complete rfl _ (exInterval_good w w')
    (Or.inl h1) h3 h2 rfl (by rw [h4]; norm_num) ⟨_, _, _, g1.primal, g1.dual, fun u hu => by
      have hu0 : u = 0 := by
        have : u < 1 := hu
        omega
      subst hu0
      exact (g1.equations 0 one_pos).trans hb.symm⟩ ε hε
  exact ⟨tri, cfg, factor, ht, e1, e2, e3, e4⟩

/-- The same program over the quaternions. -/
noncomputable def exQuaternion (w w' : HermLmi.Ws 4 1 ℝ) : Whole.Program ℝ :=
  ⟨1, fun _ => -(40 / 9), [⟨[0], .hermitian 4 1 ⟨by decide⟩ ⟨[Hyper.identity 4], some (Hyper.identity 4)⟩ w⟩,
    ⟨[0], .hermitian 4 1 ⟨by decide⟩ ⟨[Hyper.scalarMultiply (Hyper.identity 4) (-1)], some (Hyper.identity 4)⟩ w'⟩],
   [[], []], [⟨1, fun _ _ => 0, fun _ => 0, fun _ => 0, 0, 0⟩, ⟨1, fun _ _ => 0, fun _ => 0, fun _ => 0, 0, 0⟩], false⟩

theorem hermitian_one : Hyper.Spec.Hermitian (Hyper.identity 4 : HermLmi.HMat 4 1 ℝ) :=
  (Hyper.hermitian_iff _).2 Hyper.conj_identity

theorem exQuaternion_good (w w' : HermLmi.Ws 4 1 ℝ) : ConeProgram (exQuaternion w w') := by
  refine ⟨?_, ⟨_, rfl, by simp⟩, rfl, by simp [exQuaternion], by simp [Sized, exQuaternion], ?_, ?_, ?_⟩
  · intro e he
    simp only [exQuaternion, List.mem_cons, List.not_mem_nil, or_false] at he
    rcases he with rfl | rfl
    · refine ⟨by simp, by simp [exQuaternion], rfl, Or.inr (Or.inr rfl), ⟨fun A hA => ?_, fun C hC => ?_⟩, _, rfl⟩
      · rw [List.mem_singleton] at hA
        exact hA ▸ hermitian_one
      · exact (Option.some.inj hC) ▸ hermitian_one
    · refine ⟨by simp, by simp [exQuaternion], rfl, Or.inr (Or.inr rfl), ⟨fun A hA => ?_, fun C hC => ?_⟩, _, rfl⟩
      · rw [List.mem_singleton] at hA
        exact hA ▸ HermLmi.hermitian_scalar hermitian_one (-1)
      · exact (Option.some.inj hC) ▸ hermitian_one
  · intro u hu
    refine ⟨_, List.mem_cons_self, ?_⟩
    have : u < 1 := hu
    simp
    omega
  · intro k hk
    obtain ⟨k', hk', hn⟩ : ∃ k, Sup.kktInit [[0], [0]] [[], []] = .ok k ∧ Sup.Spec.NoShift k :=
      ⟨_, rfl, Sup.noShift_of_bounded (n := 2) (by decide +kernel) (by decide +kernel)⟩
    have : Outcome.ok k = Outcome.ok k' := hk.symm.trans hk'
    rw [Outcome.ok.injEq] at this
    exact this ▸ hn
  · rintro z ⟨u, hu, hz⟩
    refine ⟨_, List.mem_cons_self, fun h => hz ?_⟩
    have hu0 : u = 0 := by
      have : u < 1 := hu
      omega
    subst hu0
    have := congrFun (congrFun (h 0) 0) 0
    simpa [Finset.sum_range_succ, Hyper.identity] using this

/-- Interior points: `y = 0`, with the dual matrices `(49/9)` and `(1)`. -/
theorem exQuaternion_strict (w w' : HermLmi.Ws 4 1 ℝ) :
    Strict (startEs (exQuaternion w w')) 1 (fun _ => 40 / 9) 1 (fun _ => 0)
      (fun i => ⟨fun _ => ⟨0, fun _ => 0⟩, fun _ => 0, fun d _ => if i = 0 then Hyper.scalarMultiply (Hyper.identity d) (49 / 9)
        else Hyper.identity d⟩) (fun _ => 0) := by
  have hD := Hyper.dim_of_assoc (d := 4) (Or.inr (Or.inr rfl))
  have hone : HermLmi.Spec.PosDef (Hyper.identity 4 : HermLmi.HMat 4 1 ℝ) := HermLmi.C60_identity hD w
  have hpos : HermLmi.Spec.PosDef (Hyper.scalarMultiply (Hyper.identity 4 : HermLmi.HMat 4 1 ℝ) (49 / 9)) := by
    rw [HermLmi.posDef_lmat hD, Hyper.lmat_scalar, Hyper.lmat_identity hD]
    exact Matrix.PosDef.one.smul (by norm_num)
  have hsl : ∀ A : List (HermLmi.HMat 4 1 ℝ), Spec.hyperSlack ⟨A, some (Hyper.identity 4)⟩ 1 (fun _ => 0) = Hyper.identity 4 :=
    fun A => by
    funext c
    ext i j
    simp [Spec.hyperSlack, HermLmi.Spec.slack]
  have hes : startEs (exQuaternion w w') =
      [⟨[0], .hermitian 4 1 ⟨by decide⟩ ⟨[Hyper.identity 4], some (Hyper.identity 4)⟩ (HermLmi.setIdentity w)⟩,
       ⟨[0], .hermitian 4 1 ⟨by decide⟩ ⟨[Hyper.scalarMultiply (Hyper.identity 4) (-1)], some (Hyper.identity 4)⟩
        (HermLmi.setIdentity w')⟩] := rfl
  rw [hes]
  refine ⟨fun e he => ?_, fun i hi => ?_, fun u hu => ?_⟩
  · simp only [List.mem_cons, List.not_mem_nil, or_false] at he
    rcases he with rfl | rfl
    · change HermLmi.Spec.PosDef (Spec.hyperSlack _ 1 (fun _ => 0))
      rw [hsl]
      exact hone
    · change HermLmi.Spec.PosDef (Spec.hyperSlack _ 1 (fun _ => 0))
      rw [hsl]
      exact hone
  · have hi' : i = 0 ∨ i = 1 := by
      have : i < 2 := hi
      omega
    rcases hi' with rfl | rfl
    · exact hpos
    · exact hone
  · have hu0 : u = 0 := by omega
    subst hu0
    change ∑ i ∈ range 2, _ = _
    rw [sum_range_succ, sum_range_one]
    simp [Whole.Spec.nth, Sup.Spec.ventry, Spec.pull, Centering.Spec.gradient, HermLmi.Spec.inner, Fin.sum_univ_four,
      Hyper.identity, Hyper.scalarMultiply]
    norm_num

/-- `C99_order_one` over the quaternions. -/
example (w w' : HermLmi.Ws 4 1 ℝ) (mat : Sup.Store ℝ) (ε : ℝ) (hε : 0 < ε) :
    ∃ (tri : List ℝ → List ℝ → List ℝ) (cfg : SolveLoop.Config ℝ) (factor : ℝ), Lmi.Spec.TriEigenvalues tri ∧
      cfg.mode = 0 ∧ cfg.lineSearch = false ∧ 0 < factor ∧ ∀ (dmax big : ℝ) (status : SolveLoop.Status),
        ∃ r z, Whole.solveSearch (exMatEnv tri) ⟨false, 1, Sup.realLlt, fun _ _ b => b, mat⟩ ⟨dmax, big, factor⟩
          (exQuaternion w w') cfg status = .ok r ∧ r.res.ret = true ∧ r.array = some z ∧
          Gap.Spec.Feasible (exQuaternion w w').es z ∧ ∀ z', Gap.Spec.Feasible (exQuaternion w w').es z' →
            value (exQuaternion w w') z ≤ value (exQuaternion w w') z' + ε := by
  obtain ⟨tri, ht⟩ := exists_tri
  have g1 := exQuaternion_strict w w'
  have hb : (exQuaternion w w').b 0 = 40 / 9 := by norm_num [Whole.Program.b, exQuaternion]
  have hr : rank (exQuaternion w w').es = 2 := by simp [Dual.rank, exQuaternion, Item.rank]
  have hes : ∀ e ∈ (exQuaternion w w').es, ∃ o w, e.item = .hermitian 4 1 ⟨by decide⟩ o w := fun e he => by
    simp only [exQuaternion, List.mem_cons, List.not_mem_nil, or_false] at he
    rcases he with rfl | rfl <;> exact ⟨_, _, rfl⟩
  obtain ⟨cfg, factor, e1, e2, e3, e4⟩ := C99_order_one (exMatEnv tri) Gap.exEnv_sqrt rfl ht Iteration.ex_solves (exMatEnv_starts tri)
    ⟨false, 1, Sup.realLlt, fun _ _ b => b, mat⟩ Sup.realLlt_contract Sup.realLlt_complete rfl _ (exQuaternion_good w w')
    (Or.inr fun e he => by
      obtain ⟨o, w₁, h⟩ := hes e he
      exact Or.inl ⟨_, _, _, _, _, h⟩)
    (fun e he => by
      obtain ⟨o, w₁, h⟩ := hes e he
      rw [h]
      refine ⟨fun m o w h => ?_, fun d m hd o w h => ?_⟩ <;> cases h
      rfl)
    (fun e he n Q h' => by
      obtain ⟨o, w₁, h⟩ := hes e he
      rw [h] at h'
      cases h') rfl (by rw [hr]; norm_num) ⟨_, _, _, g1.primal, g1.dual, fun u hu => by
      have hu0 : u = 0 := by
        have : u < 1 := hu
        omega
      subst hu0
      exact (g1.equations 0 one_pos).trans hb.symm⟩ ε hε
  exact ⟨tri, cfg, factor, ht, e1, e2, e3, e4⟩

end Verif.MatrixCentering
