import Verif.Lemmas.SearchStart
import Verif.Props.WholeSolve

/-!
# Solving programs (C90, C91, C94)
-/

namespace Verif.Whole

open Finset LineSearch Centering.Spec Whole.Spec Iteration.Spec
open Verif.Dual

/-- The setup of a solve. -/
noncomputable abbrev setupOf (l : Linear ℝ) (P : Program ℝ) (kkt : Sup.Kkt) : Iteration.Setup ℝ :=
  ⟨P.N, P.b, 1, 1, kkt, l.useQr, l.refine, l.llt, l.qr⟩

/-- The result of a solve in which centering and the choice of the barrier parameter make progress. -/
theorem solve_converges {v : Env ℝ} {l : Linear ℝ} (hl : Dense.Spec.LltContract l.llt)
    (hc : Dense.Spec.LltComplete l.llt) (hqr : l.useQr = false) {P : Program ℝ} (hP : VectorProgram P)
    {S : Search ℝ} {cfg : SolveLoop.Config ℝ} {F : Nat} {ε τ : ℝ}
    (hs : ∀ n, MatrixExp.Spec.Solves (v.solve n)) (hO : Opts v cfg P.quadratic cfg.invSqrtMuMax F ε)
    (hclose : 1 / 2 * (1 / 2) ^ 2 ^ F ≤ ε) {I : List (Entry ℝ) → Prop}
    (hR : ∀ kkt, Regime v S (scaled (setupOf l P kkt) 1 1) P.duals P.quadratic I fun _ => True) (hI : I (startEs P)) (hτ : 0 ≤ τ)
    (hG : ∀ kkt, Grows v S (setupOf l P kkt) P.duals cfg P.quadratic I (fun _ => True) cfg.invSqrtMuMax τ ε)
    (hmu : 0 < 1 / 10 ^ 15 + cfg.maximumMu) (htol' : cfg.finalTol ≤ 1)
    (hthr : 1 / cfg.invSqrtMuMax ^ 2 ≤ cfg.infeasThreshold) (hpos : 0 < cfg.initCold)
    (hcent : ∀ kkt, Ready (setupOf l P kkt) P.duals ⟨startEs P, P.sys, l.mat⟩ → ∀ k, SolveLoop.kMin v.sqrt cfg ≤ k →
      k ≤ cfg.invSqrtMuMax → ∃ (X : Nat → Iteration.State ℝ) (ST : Nat → Iteration.Step ℝ),
        X 0 = ⟨startEs P, P.sys, l.mat⟩ ∧
        (∀ i, Iteration.iterate v (scaled (setupOf l P kkt) 1 1) k (X i) = .ok (some (ST i, X (i + 1)))) ∧
        (ST cfg.initCold.toNat).normsqrd ≤ 1 / 2 * (1 / 2) ^ 2 ^ F)
    {J : Nat} (hJ : cfg.invSqrtMuMax ≤ (1 + τ) ^ J * SolveLoop.kMin v.sqrt cfg)
    (hiter : cfg.initCold + J ≤ cfg.maxIter - cfg.finalSteps) (status : SolveLoop.Status) :
    ∃ r z, solveSearch v l S P cfg status = .ok r ∧ r.res.ret = true ∧
      r.res.final = some (cfg.invSqrtMuMax, cfg.invSqrtMuMax) ∧ r.array = some z ∧ Gap.Spec.Feasible P.es z ∧
      ∀ z', Gap.Spec.Feasible P.es z' → value P z ≤ value P z' + rank P.es / cfg.invSqrtMuMax ^ 2 := by
  have he := hO.expPos
  obtain ⟨hv, hexp, hmode, hch, hplain, hkkt, hmin, hmax, htol, hfine, hle, hF⟩ := id hO
  have hK : 0 < cfg.invSqrtMuMax := hmin.trans_le hmax
  obtain ⟨hN, kkt, hk, hr, -⟩ := start_ready hP hl hc hqr
  have hq : P.quadratic = false ∨ (cfg.lineSearch = true ∧ cfg.rescaling = false) := by
    rcases hch with h | h
    · exact Or.inr ⟨h, hplain⟩
    · exact Or.inl h
  set setup : Iteration.Setup ℝ := ⟨P.N, P.b, 1, 1, kkt, l.useQr, l.refine, l.llt, l.qr⟩ with hsetup
  set stats : SolveLoop.Stats ℝ := ⟨cfg.maxIter, none, some 1, some 1, []⟩ with hstats
  set q : State ℝ := ⟨SolveLoop.start cfg stats, ⟨startEs P, P.sys, l.mat⟩, none⟩ with hq₀
  have hbase : Base setup P.duals cfg I cfg.invSqrtMuMax q := ⟨ready_scaled hr 1 1, hI, rfl, rfl, rfl, rfl, hkkt, rfl⟩
  obtain ⟨q', st, m, g1, g2, g3, g4, g5, g6, g7, g8, g9, g10, -⟩ := loop_succeeds hO (hR kkt) hτ (hG kkt) hJ hiter hbase rfl rfl hpos
    fun _ _ _ _ k _ _ _ _ _ hk1 hk2 => by
      obtain ⟨X, ST, e1, e2, e3⟩ := hcent kkt hr k hk1 hk2
      exact ⟨X, ST, e1, e2, fun _ => Or.inl trivial, e3.trans hclose⟩
  -- the solve with the answers of this run
  obtain ⟨f, g, e, h8⟩ := loopSearch_refines _ _ _ _ g1
  set c : SolveLoop.Oracle ℝ := { answers (0, 0) with lineSearch := f, divergence := g, kkt := e } with hc'
  have h9 := h8 c (fun _ _ => rfl) (fun _ _ => rfl) fun _ _ => rfl
  have hne : P.es.length ≠ 0 := by
    obtain ⟨e₀, h0, -⟩ := hP.first
    intro h
    rw [List.length_eq_zero_iff.1 h] at h0
    cases h0
  have hinitp : (SolveLoop.initProgram (SolveLoop.clearStatus ⟨P.quadratic, P.es.length, false, none, status⟩) cfg).stats =
      some stats := by
    unfold SolveLoop.initProgram
    rw [if_pos (Or.inr hmode)]
    simp only [hmode, if_true, hstats]
  have hstart : (if cfg.mode = 0 then identity P.es else P.es) = startEs P := by rw [if_pos hmode]; rfl
  have hwarm : ¬ ((SolveLoop.clearStatus (⟨P.quadratic, P.es.length, false, none, status⟩ : SolveLoop.Prog ℝ)).initialized =
      false ∧ cfg.mode ≠ 0) := fun h => h.2 hmode
  have hsame : solveSearch v l S P cfg status = solve v l P cfg status c := by
    unfold solveSearch solve solveSearchAt solveAt
    simp only
    rw [if_neg (not_not.2 hq), if_neg (not_not.2 hq), if_neg hne, if_neg hne,
      if_neg hwarm, if_neg hwarm, hk]
    simp only [Outcome.bind_ok, hinitp, hstart]
    rw [← hsetup, ← hq₀, g1, h9]
    rfl
  obtain ⟨r, st', h10, h11, -, h12⟩ := C75_solve_partial v hv he hs l hl hc hqr P hP cfg hmode hmu.le
    (lt_of_le_of_lt (Int.natCast_nonneg F) hF) (by omega) hq status c
  have hover : SolveLoop.overThreshold cfg q'.s.k = false := by
    unfold SolveLoop.overThreshold
    rw [g3, decide_eq_false hK.ne', decide_eq_false]
    · rfl
    · rw [not_lt]
      refine le_trans (le_of_eq ?_) hthr
      rw [one_div_mul_one_div, sq]
  have hpost : ∃ res, SolveLoop.post cfg (SolveLoop.initProgram (SolveLoop.clearStatus
      ⟨P.quadratic, P.es.length, false, none, status⟩) cfg) q'.s = .ok res ∧ res.ret = true ∧
      res.final = some (cfg.invSqrtMuMax, cfg.invSqrtMuMax) ∧ res.prog.stats = some q'.s.stats := by
    refine ⟨_, by
      simp only [SolveLoop.post, SolveLoop.output, hover, g7, g9, SolveLoop.readVar, Outcome.bind_ok, Bool.false_eq_true,
        if_false]
      rfl, ?_, ?_, rfl⟩
    · simp [g2]
    · simp [g3, g4]
  obtain ⟨res, e1, e2, e3, e4⟩ := hpost
  have hr' : ∃ es, r = ⟨res, array res.out q'.last, q'.last, es⟩ := by
    have := h10
    unfold solve solveAt at this
    simp only at this
    rw [if_neg (not_not.2 hq), if_neg hne, if_neg hwarm, hk] at this
    simp only [Outcome.bind_ok, hinitp, hstart] at this
    rw [← hsetup, ← hq₀, h9] at this
    simp only [Outcome.bind_ok, e1, SolveLoop.bind_eq_ok, Outcome.ok.injEq] at this
    obtain ⟨es, -, h13⟩ := this
    exact ⟨es, h13.symm⟩
  obtain ⟨es, rfl⟩ := hr'
  obtain ⟨k, kMax, stats', bs, cs, z, a1, a2, a3, a4, a5, a6, a7, a8, a9⟩ := h12 e2
  have hst : st' = st := by
    have : some st' = some st := h11.symm.trans g5
    exact Option.some.inj this
  subst hst
  have hk' : k = cfg.invSqrtMuMax := by
    have : some (k, kMax) = some (cfg.invSqrtMuMax, cfg.invSqrtMuMax) := a1.symm.trans e3
    exact congrArg Prod.fst (Option.some.inj this)
  have hs' : stats' = q'.s.stats := Option.some.inj (a2.symm.trans e4)
  rw [hs', g8, Option.some.injEq] at a3
  rw [hs', g9, Option.some.injEq] at a4
  obtain ⟨b1, b2⟩ := a9 ((le_abs_self _).trans (g6.trans htol'))
  refine ⟨_, z, hsame.trans h10, e2, e3, a8, b1, fun z' hz' => (b2 z' hz').trans (add_le_add_right ?_ _)⟩
  rw [← a3, ← a4, hk', mul_one, mul_one]
  exact div_le_div_of_nonneg_right (by linarith) (by positivity)

/-- Linear inequalities and, if `quadratic`, quadratic costs; `n` rows. -/
def Linears (quadratic : Bool) (n : ℝ) (es : List (Entry ℝ)) : Prop :=
  Polyhedral es ∧ (quadratic = false → NoCosts es) ∧ count es = n

theorem linears_regime {v : Env ℝ} (hv : ∀ x, 0 ≤ x → SolveLoop.Spec.SqrtAt v.sqrt x) (hexp : v.exp = Real.exp)
    (hs : ∀ n, MatrixExp.Spec.Solves (v.solve n)) (S : Search ℝ) (p : Iteration.Setup ℝ) (hbs : 0 < p.bs) (hcs : 0 < p.cs)
    (duals : List (List Nat)) (quadratic : Bool) {n : ℝ} (hn : 1 ≤ n) :
    Regime v S p duals quadratic (Linears quadratic n) fun _ => True := by
  have he : ∀ x, 0 < v.exp x := fun x => hexp ▸ Real.exp_pos x
  refine ⟨fun x f solver hr hI hf hsol => divergenceMu_ok hv hr hI.1 hf hsol, fun _ _ => trivial,
    fun x x' st k hr hI h _ => (Iteration.ready_next hv he hs hr h (Centering.unregularized hv he hr h) fun e he' hd => ?_).1,
    fun x x' st k hr hI h _ => ?_, fun hq x x' st k tol hr hI hk htol h => ?_, fun x x' st k hr hI h _ => ?_,
    fun x x' x'' st st' k hr hI h hr' h' hst => ?_⟩
  · rcases hI.1 e he' with ⟨o, w, ho⟩ | ⟨m, Q, ho⟩ <;> rw [ho] at hd <;> exact hd.elim
  · obtain ⟨h1, h2⟩ := Centering.iterated hexp hr hI.1 h (Centering.unregularized hv he hr h)
    exact ⟨h2, fun hq => noCosts_next hI.1 (hI.2.1 hq) h, (alike_count h1.alike).trans hI.2.2⟩
  · refine stepError_le hv he hr (hI.2.1 hq) (fun e he' o ho => ?_) hk hbs hcs h htol
    rcases hI.1 e he' with ⟨o', w, ho'⟩ | ⟨m, Q, ho'⟩ <;> rw [ho] at ho' <;> cases ho'
  · have h1 := (Centering.iterated hexp hr hI.1 h (Centering.unregularized hv he hr h)).1
    exact ⟨Centering.iterated_nonneg h1, (norm_abs h1 (hI.2.2 ▸ hn)).2⟩
  · obtain ⟨h1, h2⟩ := Centering.iterated hexp hr hI.1 h (Centering.unregularized hv he hr h)
    have h3 := (Centering.iterated hexp hr' h2 h' (Centering.unregularized hv he hr' h')).1
    have h4 := Centering.iterated_quadratic h1 h3 (Centering.iterated_le_one h1 hst)
    nlinarith [mul_le_mul_of_nonneg_right (norm_abs h1 (hI.2.2 ▸ hn)).2 (Centering.iterated_nonneg h1)]

/-- A solve with linear inequalities and quadratic costs. -/
theorem polyhedral_converges {v : Env ℝ} {l : Linear ℝ} (hl : Dense.Spec.LltContract l.llt)
    (hc : Dense.Spec.LltComplete l.llt) (hqr : l.useQr = false) {P : Program ℝ} (hP : VectorProgram P)
    (hp : Polyhedral P.es)
    {y : Nat → ℝ} {x : Nat → Nat → ℝ} {w : Nat → ℝ} (hI : Interior P.es P.m P.b 1 y x w)
    {S : Search ℝ} {cfg : SolveLoop.Config ℝ} {F : Nat} {ε τ : ℝ}
    (hs : ∀ n, MatrixExp.Spec.Solves (v.solve n)) (hO : Opts v cfg P.quadratic cfg.invSqrtMuMax F ε)
    (hclose : 1 / 2 * (1 / 2) ^ 2 ^ F ≤ ε) (hrows : 1 ≤ count P.es) (hτ : 0 ≤ τ)
    (hG : ∀ kkt, Grows v S (setupOf l P kkt) P.duals cfg P.quadratic (Linears P.quadratic (count P.es))
      (fun _ => True) cfg.invSqrtMuMax τ ε)
    (hmu : 0 < 1 / 10 ^ 15 + cfg.maximumMu) (htol' : cfg.finalTol ≤ 1)
    (hthr : 1 / cfg.invSqrtMuMax ^ 2 ≤ cfg.infeasThreshold)
    {μ ν : ℝ} (hμ : 0 < μ) (hν : 0 < ν)
    (hx : ∀ i < P.es.length, ∀ r < (con (nth P.es i).item).n, μ ≤ SolveLoop.kMin v.sqrt cfg * x i r)
    (hy : ∀ i < P.es.length, ∀ r < (con (nth P.es i).item).n, ν ≤ SolveLoop.kMin v.sqrt cfg * slack P.es 1 y i r)
    (hinit : 40 * ((count P.es + cfg.invSqrtMuMax ^ 2 * (product P.es 1 y x +
      curvature P.es P.m (fun u => w u - y u) / 4)) * (1 / μ + 1 / ν) - 2 * count P.es) + 1 + F ≤ cfg.initCold)
    {J : Nat} (hJ : cfg.invSqrtMuMax ≤ (1 + τ) ^ J * SolveLoop.kMin v.sqrt cfg)
    (hiter : cfg.initCold + J ≤ cfg.maxIter - cfg.finalSteps) (status : SolveLoop.Status) :
    ∃ r z, solveSearch v l S P cfg status = .ok r ∧ r.res.ret = true ∧
      r.res.final = some (cfg.invSqrtMuMax, cfg.invSqrtMuMax) ∧ r.array = some z ∧ Gap.Spec.Feasible P.es z ∧
      ∀ z', Gap.Spec.Feasible P.es z' → value P z ≤ value P z' + rank P.es / cfg.invSqrtMuMax ^ 2 := by
  have he := hO.expPos
  have hK : 0 < cfg.invSqrtMuMax := hO.min.trans_le hO.max
  obtain ⟨hN, kkt, hk, hr, -⟩ := start_ready hP hl hc hqr
  have hdist : ∀ kkt, Ready (setupOf l P kkt) P.duals ⟨startEs P, P.sys, l.mat⟩ → ∀ k, SolveLoop.kMin v.sqrt cfg ≤ k →
      k ≤ cfg.invSqrtMuMax → ∃ z, Central (startEs P) P.N (fun u => k * P.b u) k z ∧ 0 ≤ distance (startEs P) k z ∧
        40 * distance (startEs P) k z + 1 + F ≤ cfg.initCold := by
    intro kkt hr k hk1 hk2
    obtain ⟨z, h1, h2, h3⟩ := start_distance hp (x₀ := ⟨startEs P, P.sys, l.mat⟩) rfl hr (y := y) (x := x) (w := w) (by
      show Interior P.es P.N P.b 1 y x w
      rw [hN]
      exact hI) hO.min hμ hν hx hy hk1 hk2
    refine ⟨z, h1, h2, ?_⟩
    have h4 : curvature P.es P.N (fun u => w u - y u) = curvature P.es P.m (fun u => w u - y u) := by rw [hN]
    have h5 : distance (startEs P) k z ≤ (count P.es + cfg.invSqrtMuMax ^ 2 * (product P.es 1 y x +
      curvature P.es P.N (fun u => w u - y u) / 4)) * (1 / μ + 1 / ν) - 2 * count P.es := h3
    rw [h4] at h5
    linarith
  have hpos : 0 < cfg.initCold := by
    obtain ⟨z, -, h1, h2⟩ := hdist kkt hr _ le_rfl hO.max
    have h3 : (0 : ℝ) ≤ F := Nat.cast_nonneg F
    have : (0 : ℝ) < cfg.initCold := by linarith
    exact_mod_cast this
  refine solve_converges hl hc hqr hP hs hO hclose (fun kkt => linears_regime hO.sqrt hO.exp hs S _ one_pos one_pos _ _ hrows)
    ⟨polyhedral_start hp, fun h e he' n Q hx => ?_, alike_count (alike_start hp)⟩ hτ hG hmu htol' hthr hpos
    (fun kkt hr k hk1 hk2 => ?_) hJ hiter status
  · obtain ⟨e', he'', rfl⟩ := List.mem_map.1 he'
    rcases hp e' he'' with ⟨o, w, ho⟩ | ⟨n', Q', ho⟩
    · simp only [ho, setIdentity] at hx
      cases hx
    · rw [hP.costs e' he'' _ _ ho] at h
      cases h
  · obtain ⟨z, h1, -, h2⟩ := hdist kkt hr k hk1 hk2
    obtain ⟨X, ST, e1, e2, -, -, e3⟩ := Centering.C88_centering v hO.sqrt hO.exp hs (scaled (setupOf l P kkt) 1 1)
      P.duals ⟨startEs P, P.sys, l.mat⟩ (ready_scaled hr 1 1) (polyhedral_start hp) k z (by simpa [scaled] using h1)
    have e5 : ((cfg.initCold.toNat : Nat) : ℝ) = (cfg.initCold : ℝ) := by
      have : ((cfg.initCold.toNat : Nat) : Int) = cfg.initCold := by omega
      exact_mod_cast this
    exact ⟨X, ST, e1, e2, (e3 F cfg.initCold.toNat (by
      rw [e5]
      simpa [scaled] using h2)).2⟩

/-- The smallest parameter. -/
theorem kMin_pos {sqrt : ℝ → ℝ} (hv : ∀ x, 0 ≤ x → SolveLoop.Spec.SqrtAt sqrt x) {cfg : SolveLoop.Config ℝ}
    (hmu : 0 < 1 / 10 ^ 15 + cfg.maximumMu) : 0 < SolveLoop.kMin sqrt cfg := by
  obtain ⟨h1, h2⟩ := hv (1 / (1 / 10 ^ 15 + cfg.maximumMu)) (one_div_nonneg.2 hmu.le)
  refine lt_of_le_of_ne h1 fun h => ?_
  unfold SolveLoop.kMin at h
  rw [← h, mul_zero] at h2
  exact (one_div_pos.2 hmu).ne h2

/-- The line search makes progress. -/
theorem search_grows {v : Env ℝ} (hv : ∀ x, 0 ≤ x → SolveLoop.Spec.SqrtAt v.sqrt x) (hexp : v.exp = Real.exp)
    (hs : ∀ n, MatrixExp.Spec.Solves (v.solve n)) {S : Search ℝ} (hδ : 0 < S.dmax) {n : ℝ} (hsmall : 8 * n * S.dmax ^ 2 ≤ 1)
    (hn : 1 ≤ n) {cfg : SolveLoop.Config ℝ} (hline : cfg.lineSearch = true) (hmin : 0 < SolveLoop.kMin v.sqrt cfg) {K : ℝ}
    (hbig : K ≤ S.big) (p : Iteration.Setup ℝ) (duals : List (List Nat)) (quadratic : Bool) :
    Grows v S p duals cfg quadratic (Linears quadratic n) (fun _ => True) K (S.dmax ^ 2) (S.dmax ^ 2 / 4) := by
  intro x x' st k f solver a t i hr ⟨hp, hc, hcount⟩ hk1 hk2 h0 hst hf hsol ha hcand
  have hkpos : 0 < k := hmin.trans_le hk1
  obtain ⟨f', solver', u, g1, g2, g3, g4, g5⟩ := search_grow hv hexp hr hp hδ (by rw [hcount]; exact hsmall)
    (by rw [hcount]; exact hn) hkpos hk2 hbig h0 hst
  rw [hf, Outcome.ok.injEq] at g1
  subst g1
  rw [hsol, Option.some.injEq] at g2
  subst g2
  have hu : 0 < u := hkpos.trans_le ((le_min (by nlinarith [sq_nonneg S.dmax]) hk2).trans g4)
  have ha1 : a.1 = u := by
    simp only [chosenMu, searchIf, hline, Bool.and_true, if_true, g3, Outcome.bind_ok, SolveLoop.bind_eq_ok, Outcome.ok.injEq] at ha
    obtain ⟨d, -, rfl⟩ := ha
    rfl
  have ht : t = u := by
    unfold SolveLoop.candidate at hcand
    simp only [hline, if_true, answers, ha1] at hcand
    rw [if_neg (not_lt.2 hu.le), if_neg (not_lt.2 hu.le), Option.some.injEq] at hcand
    exact hcand.symm
  subst ht
  refine ⟨g4, fun k' h1 h2 st₁ x₁ e1 => ⟨trivial, fun st₂ x₂ e2 => ?_⟩⟩
  exact search_next hv hexp hs hr hp (by rw [hcount]; exact hsmall) (by rw [hcount]; exact hn) e1 e2
    (g5 k' h1 h2 _ _ e1) hδ.le

/-- The divergence makes progress. -/
theorem divergence_grows {v : Env ℝ} (hv : ∀ x, 0 ≤ x → SolveLoop.Spec.SqrtAt v.sqrt x) (hexp : v.exp = Real.exp)
    (hs : ∀ n, MatrixExp.Spec.Solves (v.solve n)) {S : Search ℝ} (hS : 0 < S.factor) {n : ℝ} (hsmall : S.factor * n ≤ 1 / 32)
    (hn : 1 ≤ n) {τ : ℝ} (hτ : 0 ≤ τ) (hτS : 16 * τ ^ 2 ≤ S.factor) {cfg : SolveLoop.Config ℝ}
    (hline : cfg.lineSearch = false) (hmin : 1 / 24000 ≤ SolveLoop.kMin v.sqrt cfg) (K : ℝ) (p : Iteration.Setup ℝ)
    (duals : List (List Nat)) : Grows v S p duals cfg false (Linears false n) (fun _ => True) K τ (2 * (S.factor * n) ^ 2) := by
  intro x x' st k f solver a t i hr ⟨hp, hc, hcount⟩ hk1 hk2 h0 hst hf hsol ha hcand
  have hk : 1 / 24000 ≤ k := hmin.trans hk1
  have hkpos : 0 < k := lt_of_lt_of_le (by norm_num) hk
  obtain ⟨d, g1, g2, g3⟩ := divergence_grow hv hexp hr hp (hc rfl) (by rw [hcount]; exact hn) hS (by rw [hcount]; exact hsmall) hτ hτS
    hf hsol hk h0 (by rw [hcount]; exact hst)
  have ha2 : a.2 = d := by
    simp only [chosenMu, searchIf, hline, Bool.and_false, Bool.false_eq_true, if_false, divergenceIf, Outcome.bind_ok] at ha
    rw [if_pos (by norm_num), g1] at ha
    simp only [Outcome.bind_ok, Outcome.ok.injEq] at ha
    rw [← ha]
  have ht : t = d := by
    unfold SolveLoop.candidate at hcand
    simp only [hline, Bool.false_eq_true, if_false, answers, ha2] at hcand
    rw [if_pos (by norm_num), Option.some.injEq] at hcand
    exact hcand.symm
  subst ht
  refine ⟨(min_le_left _ _).trans g2, fun k' h1 h2 st₁ x₁ e1 => ⟨trivial, fun st₂ x₂ e2 => ?_⟩⟩
  have hkk : k ≤ k' := (le_min (by nlinarith) hk2).trans h1
  have := g3 k' hkk h2 _ _ e1
  rw [hcount] at this
  exact divergence_next hv hexp hs hr hp (by linarith) e1 e2 this

end Verif.Whole
