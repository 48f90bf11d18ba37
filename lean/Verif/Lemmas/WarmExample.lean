import Verif.Props.DualCertificate
import Verif.Lemmas.WarmSolve

/-!
# Lemmas for the counterexample to C87
-/

namespace Verif.Whole

open Finset Dual Iteration.Spec Spec

/-- The constraint `y ≤ 1`. -/
noncomputable def oneRow : Linear.Con ℝ := ⟨1, 1, fun i _ => if i = 0 then 1 else -1, fun _ => 1⟩

/-- The part of an iteration that does not depend on the barrier parameter, for any scaling point other than zero. -/
theorem one_factorize (v : Env ℝ) {p : Iteration.Setup ℝ} (hN : p.N = 1) (hl : Dense.Spec.LltContract p.llt)
    (hc : Dense.Spec.LltComplete p.llt) (hqr : p.useQr = false) (hk : Sup.kktInit [[0]] [[]] = .ok p.kkt)
    (w : Linear.Ws ℝ) (hW : w.W 0 ≠ 0) (s : Schur.Sys ℝ) (hs : s.rows = 1) (mat : Sup.Store ℝ) :
    ∃ f solver, Iteration.factorize v p ⟨[⟨[0], .linear oneRow w⟩], [s], mat⟩ = .ok f ∧ f.solver = some solver ∧
      f.r.AQc 0 = w.W 0 ^ 2 ∧ f.r.AW 0 = w.W 0 ∧
      ∀ b, ∃ y, solver.solveInPlace p.qr 1 b = .ok y ∧ w.W 0 ^ 2 * y 0 = b 0 := by
  obtain ⟨t, h1, -, h2, h3, h4⟩ := Linear.C35_schur_init oneRow w.W s (by rw [hs]; rfl)
  have h2 := h2 0 (by omega) 0 (by omega)
  have h3 := h3 0 (by omega)
  have h4 := h4 0 (by omega)
  simp [oneRow] at h2 h3 h4
  have hno : Sup.Spec.NoShift p.kkt := by
    obtain ⟨k', hk', hn⟩ : ∃ k, Sup.kktInit [[0]] [[]] = .ok k ∧ Sup.Spec.NoShift k :=
      ⟨_, rfl, Sup.noShift_of_bounded (n := 1) (by decide +kernel) (by decide +kernel)⟩
    have : Outcome.ok p.kkt = Outcome.ok k' := hk.symm.trans hk'
    rw [Outcome.ok.injEq] at this
    exact this ▸ hn
  have htot : Sup.Spec.total [[0]] (fun i => (Iteration.sysAt [t] i).G) 0 0 = w.W 0 ^ 2 := by
    simp [Sup.Spec.total, Sup.Spec.entry, Iteration.sysAt, h2]
  obtain ⟨wk, m, h5, h6, -⟩ := Sup.C69_assembled_system [[0]] [[]] (by simp) rfl (by simp) p.kkt hk hno 1
    (by intro u; simp) p.llt hl hc p.qr (fun i => (Iteration.sysAt [t] i).G) mat p.refine
  obtain ⟨solver, h7, h8⟩ := h6 (by
    rintro x ⟨i, hi, hx⟩
    obtain rfl : i = 0 := by omega
    simp only [sum_range_one]
    rw [htot]
    have := sq_pos_of_ne_zero hx
    have := sq_pos_of_ne_zero hW
    nlinarith [mul_pos (sq_pos_of_ne_zero hx) (sq_pos_of_ne_zero hW)])
  obtain ⟨r, h9, -, -, h10, h11⟩ := Sup.C19_residuals 1 [[0]]
    (fun i => KktError.resid (Iteration.sysAt [t] i)) (by simp) (by simp)
  refine ⟨⟨[t], r, some solver⟩, solver, ?_, rfl, ?_, ?_, fun b => ?_⟩
  · unfold Iteration.factorize
    have : Iteration.schurAll v.sqrt [⟨[0], .linear oneRow w⟩] [s] = .ok [t] := by
      simp only [Iteration.schurAll, Item.schur, h1, Outcome.bind_ok]
    simp only [this, Outcome.bind_ok, h5, hN, List.map_cons, List.map_nil, h9, hqr, h7]
  · rw [show (⟨[t], r, some solver⟩ : Iteration.Factored ℝ).r = r from rfl, h11 0]
    simp [Sup.Spec.ventry, KktError.resid, Iteration.sysAt, h4]
  · rw [show (⟨[t], r, some solver⟩ : Iteration.Factored ℝ).r = r from rfl, h10 0]
    simp [Sup.Spec.ventry, KktError.resid, Iteration.sysAt, h3]
  · obtain ⟨y, g1, g2⟩ := h8 b
    refine ⟨y, g1, ?_⟩
    have := g2 0 (by omega)
    rw [sum_range_one, htot] at this
    exact this

/-- The warm options. -/
noncomputable def forcedWarm : SolveLoop.Config ℝ := { forced with mode := 1, prepareDual := false }

/-- The linear solver of the examples. -/
noncomputable def exSolver (mat : Sup.Store ℝ) : Linear ℝ := ⟨false, 1, Sup.realLlt, fun _ _ b => b, mat⟩

/-- The step of the second solve: the direction is zero, so that the solve believes to be on the central path. -/
theorem one_advance (p : Iteration.Setup ℝ) (hN : p.N = 1) (hb : p.b 0 = -1) (hbs : p.bs = 1) (hcs : p.cs = 1) {κ : ℝ}
    (hκ : 0 < κ) (w : Linear.Ws ℝ) (hW : w.W 0 = -κ) (s : List (Schur.Sys ℝ)) (mat : Sup.Store ℝ)
    (sys : List (Schur.Sys ℝ)) (r : Sup.Resid ℝ) (h1 : r.AQc 0 = w.W 0 ^ 2) (h2 : r.AW 0 = w.W 0)
    (solver : Sup.Solver ℝ)
    (hs : ∀ b, ∃ y, solver.solveInPlace p.qr 1 b = .ok y ∧ w.W 0 ^ 2 * y 0 = b 0) :
    ∃ st x, advanceAt Gap.exEnv p forcedWarm 0 κ ⟨[⟨[0], .linear oneRow w⟩], s, mat⟩ sys r solver = .ok (st, x) ∧
      st.norm = 0 ∧ st.y 0 = κ + 1 / κ := by
  obtain ⟨y, h3, h4⟩ := hs (Iteration.rhs p κ r)
  have hy : y 0 = κ + 1 / κ := by
    rw [hW, Iteration.rhs, hb, hbs, hcs, h1, h2, hW] at h4
    field_simp at h4 ⊢
    linarith
  unfold advanceAt
  rw [if_pos ⟨rfl, rfl⟩]
  unfold advanceWarm
  rw [hN, h3]
  have hd : (oneRow.A 0 0 * y 0 - oneRow.c 0 * (κ * p.cs)) * w.W 0 + 1 = 0 := by
    rw [hcs, hW, hy]
    simp only [oneRow, if_true]
    field_simp
    ring
  have hp : ∃ es, Dual.prepareStep Gap.exEnv (κ * p.cs) 1 y [⟨[0], .linear oneRow w⟩] =
      .ok ([⟨[0], .linear oneRow es⟩], 0, 0) := by
    have hl : ∃ w', Linear.prepareStep Gap.exEnv.exp oneRow ⟨false, κ * p.cs, 1, 1⟩ 1 (fun j => y ([0].getD j 0)) w =
        .ok (w', some (0, 0)) := by
      unfold Linear.prepareStep Linear.negativeSlack
      rw [if_neg (by simp), if_neg (by simp [oneRow])]
      simp only [Outcome.bind_ok]
      rw [if_neg (by simp [oneRow])]
      simp only [Outcome.ok.injEq, Prod.mk.injEq, Option.some.injEq]
      refine ⟨_, rfl, ?_⟩
      rw [show oneRow.n - 1 = 0 from rfl, show oneRow.n = 1 from rfl, show oneRow.m = 1 from rfl]
      simp only [Linear.maxCoeff, sum_range_one, List.getD_cons_zero, hd, abs_zero, mul_zero, and_self]
    obtain ⟨w', hl⟩ := hl
    refine ⟨w', ?_⟩
    have hg : Dual.gather 1 y [0] = .ok fun j => y ([0].getD j 0) := by
      unfold Dual.gather
      rw [if_neg (by simp)]
    unfold Dual.prepareStep Dual.prepareLoop
    simp only [hg, Outcome.bind_ok, Item.prepareStep, List.length_singleton, hl, Dual.prepareLoop, updateNorm, add_zero]
    rw [if_pos (by norm_num)]
  obtain ⟨w', hp⟩ := hp
  simp only [Outcome.bind_ok, hp]
  rw [if_neg (by norm_num [forcedWarm, forced])]
  simp only [Dual.takeStep, Item.takeStep, Outcome.bind_ok]
  exact ⟨_, _, rfl, rfl, hy⟩

/-- The second solve. -/
theorem one_warm {κ : ℝ} (hκ : SolveLoop.kMin Gap.exEnv.sqrt forced = κ) (w : Linear.Ws ℝ) (hW : w.W 0 = -κ)
    (s : Schur.Sys ℝ) (hs : s.rows = 1) (mat : Sup.Store ℝ) (p : SolveLoop.Prog ℝ) (hq : p.quadratic = false)
    (hi : p.initialized = true) (stats : SolveLoop.Stats ℝ) (hst : p.stats = some stats) (hcap : stats.cap = 4)
    (hb : stats.bScale = some 1) (hc : stats.cScale = some 1) (c : SolveLoop.Oracle ℝ) :
    ∃ r st es z, solveAt Gap.exEnv (exSolver mat) ⟨1, fun _ => 1, [⟨[0], .linear oneRow w⟩], [[]], [s], false⟩ p forcedWarm c =
        .ok r ∧ r.es = some es ∧ r.res.ret = true ∧ r.last = some st ∧ st.norm = 0 ∧ r.array = some z ∧ 1 < z 0 := by
  obtain ⟨hhalf, hover⟩ := forced_kMin Gap.exEnv_sqrt
  rw [hκ] at hhalf hover
  have hκ0 : 0 < κ := by linarith
  have hκ' : SolveLoop.kMin Gap.exEnv.sqrt forcedWarm = κ := hκ
  have hover' : SolveLoop.overThreshold forcedWarm κ = false := hover
  obtain ⟨kkt, hk⟩ : ∃ k, Sup.kktInit [[0]] [[]] = .ok k := ⟨_, rfl⟩
  -- the iteration
  obtain ⟨f, solver, h1, h2, h3, h4, h5⟩ := one_factorize Gap.exEnv
    (p := ⟨1, fun u => if u < 1 then -1 else 0, 1, 1, kkt, false, 1, Sup.realLlt, fun _ _ b => b⟩) rfl
    Sup.realLlt_contract Sup.realLlt_complete rfl hk w (by rw [hW]; linarith) s hs mat
  obtain ⟨st, x, h6, h7, h8⟩ := one_advance
    ⟨1, fun u => if u < 1 then -1 else 0, 1, 1, kkt, false, 1, Sup.realLlt, fun _ _ b => b⟩ rfl (by simp) rfl rfl hκ0 w hW
    [s] mat f.sys f.r h3 h4 solver h5
  have hbody : ∃ s', body Gap.exEnv ⟨1, fun u => if u < 1 then -1 else 0, 1, 1, kkt, false, 1, Sup.realLlt, fun _ _ b => b⟩
      forcedWarm false c 0
        ⟨SolveLoop.start forcedWarm stats, ⟨[⟨[0], .linear oneRow w⟩], [s], mat⟩, none⟩ = .ok (.brk, ⟨s', x, some st⟩) ∧
        s'.k = κ ∧ s'.maxReached = false ∧ s'.stats.numIter = some 1 ∧ s'.stats.cScale = some 1 := by
    have hfc : SolveLoop.finalCentering forcedWarm 0 (SolveLoop.start forcedWarm stats) = false := by
      norm_num [SolveLoop.finalCentering, SolveLoop.start, forcedWarm, forced]
    have hup : SolveLoop.updateMu forcedWarm 0 (SolveLoop.start forcedWarm stats) = true := by
      simp [SolveLoop.updateMu]
    unfold body
    simp only [hfc, hup]
    rw [if_neg (by simp), h1]
    simp only [Outcome.bind_ok]
    unfold SolveLoop.rescale
    rw [if_neg (by simp [forcedWarm, forced])]
    simp only [Outcome.bind_ok, h2]
    have hmu : ∀ S : SolveLoop.State ℝ, ∃ k, SolveLoop.chooseMu forcedWarm false c 0 true S = some { S with k := k } := by
      intro S
      unfold SolveLoop.chooseMu SolveLoop.candidate
      rw [show forcedWarm.lineSearch = false from rfl]
      simp only [Bool.false_eq_true, if_false, if_true]
      rw [if_pos (by norm_num), Option.map_some]
      by_cases h : 0 < c.divergence 0
      · exact ⟨_, by rw [if_pos h]⟩
      · exact ⟨_, by rw [if_neg h]⟩
    obtain ⟨k, hk⟩ := hmu _
    rw [hk]
    have hl : SolveLoop.applyLimits k κ (1 / 2) = κ := by
      unfold SolveLoop.applyLimits
      by_cases h' : 1 / 2 < k
      · simp only [h', if_true, hhalf]
      · have : k < κ := by linarith [not_lt.1 h']
        simp only [h', if_false, this, if_true]
    simp only [SolveLoop.start, hb, hc, SolveLoop.readVar, Outcome.bind_ok, hκ',
      show forcedWarm.invSqrtMuMax = 1 / 2 from rfl, hl, h6]
    unfold SolveLoop.finish
    simp only [hb, hc, SolveLoop.readVar, Outcome.bind_ok, hκ', hl, hcap, h7, abs_zero]
    rw [if_neg (by norm_num), if_pos ⟨by rw [decide_eq_true hhalf.le]; rfl, by norm_num [forcedWarm, forced]⟩]
    exact ⟨_, rfl, rfl, rfl, rfl, rfl⟩
  obtain ⟨s', h9, h10, h11, h12, h13⟩ := hbody
  have hpost : ∃ res, SolveLoop.post forcedWarm (SolveLoop.clearStatus p) s' = .ok res ∧ res.ret = true ∧
      res.out = .scaled s'.y κ 1 := by
    unfold SolveLoop.post SolveLoop.output
    rw [h10, hover', h11, h12, h13]
    exact ⟨_, rfl, rfl, rfl⟩
  obtain ⟨res, h14, h15, h16⟩ := hpost
  refine ⟨⟨res, some fun u => st.y u / κ / 1, some st, some x.es⟩, st, x.es, _, ?_, rfl, h15, rfl, h7, rfl, ?_⟩
  · unfold solveAt
    rw [if_neg (by simp)]
    have hin : SolveLoop.initProgram (SolveLoop.clearStatus p) forcedWarm = SolveLoop.clearStatus p := by
      unfold SolveLoop.initProgram
      rw [if_neg]
      rintro (h | h)
      · rw [show (SolveLoop.clearStatus p).initialized = p.initialized from rfl, hi] at h
        cases h
      · cases h
    have hst' : (SolveLoop.clearStatus p).stats = some stats := hst
    have hi' : (SolveLoop.clearStatus p).initialized = true := hi
    simp only [List.length_singleton, Nat.one_ne_zero, if_false, hi', Bool.true_eq_false, false_and, List.map_cons,
      List.map_nil, hk, Outcome.bind_ok, hin, hst']
    have hloop : loop Gap.exEnv ⟨1, fun u => if u < 1 then -1 else 0, 1, 1, kkt, false, 1, Sup.realLlt, fun _ _ b => b⟩
        forcedWarm false c 4 0
        ⟨SolveLoop.start forcedWarm stats, ⟨[⟨[0], .linear oneRow w⟩], [s], mat⟩, none⟩ = .ok (.brk, ⟨s', x, some st⟩) := by
      unfold loop
      rw [h9]
      rfl
    have hb : Program.b (⟨1, fun _ => 1, [⟨[0], .linear oneRow w⟩], [[]], [s], false⟩ : Program ℝ) =
        fun u => if u < 1 then -1 else 0 := rfl
    have hN : Program.N (⟨1, fun _ => 1, [⟨[0], .linear oneRow w⟩], [[]], [s], false⟩ : Program ℝ) = 1 := rfl
    have hm : ¬ forcedWarm.mode = 0 := by simp [forcedWarm]
    rw [hb, hN, if_neg hm]
    simp only [exSolver]
    rw [show forcedWarm.maxIter.toNat = 4 from rfl, hloop]
    simp only [Outcome.bind_ok, h14, after]
    rw [show forcedWarm.prepareDual = false from rfl]
    simp only [Bool.false_eq_true, if_false, Outcome.bind_ok, h16, array]
  · show 1 < st.y 0 / κ / 1
    rw [h8, div_one, lt_div_iff₀ hκ0]
    have : 0 < 1 / κ := by positivity
    linarith

/-- The first solve leaves a negative scaling point. -/
theorem one_cold {κ : ℝ} (hκ : SolveLoop.kMin Gap.exEnv.sqrt forced = κ) (w : Linear.Ws ℝ) (mat : Sup.Store ℝ)
    (status : SolveLoop.Status) (c : SolveLoop.Oracle ℝ) :
    ∃ r w' stats, solve Gap.exEnv (exSolver mat) (exLinear 1 1 w) forced status c = .ok r ∧
      r.res.ret = true ∧ r.es = some [⟨[0], .linear oneRow w'⟩] ∧ w'.W 0 = -κ ∧ r.res.prog.quadratic = false ∧
      r.res.prog.initialized = true ∧ r.res.prog.stats = some stats ∧ stats.cap = 4 ∧ stats.bScale = some 1 ∧
      stats.cScale = some 1 := by
  obtain ⟨r, st, es, h1, -, h2, h3⟩ := C86_certificate_partial Gap.exEnv Gap.exEnv_sqrt rfl Iteration.ex_solves
    (exSolver mat) Sup.realLlt_contract Sup.realLlt_complete rfl (exLinear 1 1 w)
    (exLinear_good _ 0 w).1 (exLinear_good _ 0 w).2 forced rfl rfl (by norm_num [forced]) (by norm_num [forced])
    (by norm_num [forced]) (Or.inl rfl) status c
  obtain ⟨kkt, q, j, bs, cs, k, X, ST, res, es', g1, -, -, -, -, g5, g6, g7, g8⟩ :=
    solve_ok Gap.exEnv_sqrt Real.exp_pos Iteration.ex_solves
      (l := exSolver mat) Sup.realLlt_contract Sup.realLlt_complete rfl
      (exLinear_good 1 0 w).1 (cfg := forced) rfl (by norm_num [forced]) (by norm_num [forced])
      (by norm_num [forced]) (Or.inl rfl) status c
  obtain ⟨kkt', q', j', bs', cs', res', es'', -, -, f1, f2, -, f3, f4, -⟩ :=
    solveAt_ok Gap.exEnv_sqrt Real.exp_pos Iteration.ex_solves
      (l := exSolver mat) Sup.realLlt_contract Sup.realLlt_complete rfl
      (exLinear_good 1 0 w).1 (p := ⟨false, 1, false, none, status⟩) ⟨rfl, rfl⟩ (cfg := forced)
      ⟨by norm_num [forced], by norm_num [forced], by norm_num [forced], Or.inl rfl⟩ (capacity := 0) (Or.inl rfl) c
  have f1' : solve Gap.exEnv (exSolver mat) (exLinear 1 1 w) forced status c = _ := f1
  rw [h1, Outcome.ok.injEq] at f1'
  have g5' := g5
  rw [h1, Outcome.ok.injEq] at g5'
  have hsucc : r.res.ret = true ∧ ∃ kMax, r.res.final = some (κ, kMax) := by
    obtain ⟨o, -, -, -, h4⟩ := C75_refines _ _ _ _ rfl rfl forced _ _ h1
    rw [← hκ]
    refine forced_solve Gap.exEnv_sqrt 0 status o h4 ?_
    rw [g5']
    show res.final ≠ none
    rw [g7]
    simp
  obtain ⟨hret, kMax, hfin⟩ := hsucc
  obtain ⟨k', kMax', stats, bs₂, cs₂, z, x, e1, e2, e3, e4, e5, e6, e7, e8, e9, e10, -⟩ := h3 hret
  have hkκ : q.s.k = κ := by
    have : res.final = some (κ, kMax) := by rw [← hfin, g5']
    rw [g7] at this
    simp only [Option.some.injEq, Prod.mk.injEq] at this
    exact this.1
  obtain ⟨rfl, rfl⟩ := g1.plain rfl
  have hst : r.res.prog.stats = some q.s.stats := by rw [g5', ← g6]
  have hes : es'' = es := by
    have : r.es = some es'' := by rw [f1']
    rw [h2, Option.some.injEq] at this
    exact this.symm
  subst hes
  obtain ⟨w', hw⟩ : ∃ w', es'' = [⟨[0], .linear oneRow w'⟩] := by
    have f2 : Keeps [⟨[0], .linear oneRow w⟩] es'' := f2
    obtain ⟨⟨vars, x⟩, t, ⟨a, w', b⟩, c, rfl⟩ := List.forall₂_cons_left_iff.1 f2
    obtain rfl := List.forall₂_nil_left_iff.1 c
    exact ⟨w', by rw [show vars = [0] from a, show x = .linear oneRow w' from b]⟩
  subst hw
  have hb := g1.bScale
  have hc := g1.cScale
  rw [ite_self] at hb hc
  have hx : x 0 0 = -1 := by
    have := e10 0 Nat.zero_lt_one
    simpa [balance, exLinear, nth, con, Sup.Spec.ventry] using this
  refine ⟨r, w', q.s.stats, h1, hret, h2, ?_, ?_, ?_, hst, g1.cap, hb, hc⟩
  · obtain ⟨-, -, g9⟩ := g8 (by rw [g5'] at hret; exact hret)
    have hscale : dualScale r.res.prog.stats = .ok κ := by
      unfold dualScale
      rw [hst]
      simp only [SolveLoop.readVar, Outcome.bind_ok, (g1.last j rfl).2.2.2, Nat.add_sub_cancel, g1.mu j rfl, hb, hkκ,
        mul_one]
    have hsame : Same (exLinear 1 1 w).es [⟨[0], .linear oneRow w'⟩] := by
      refine ⟨rfl, ?_, ?_⟩ <;> intro i hi
      · obtain rfl : i = 0 := by simpa [exLinear] using hi
        rfl
      · obtain rfl : i = 0 := by simpa [exLinear] using hi
        exact ⟨w', rfl⟩
    have h5 := reads_of hsame (prog := r.res.prog) (by rw [g5']; exact g9) hscale 0 Nat.zero_lt_one
    rw [e9 0 Nat.zero_lt_one] at h5
    have hκ0 : 0 < κ := by
      have := (forced_kMin Gap.exEnv_sqrt).1
      rw [hκ] at this
      linarith
    simp [nth, scal, exLinear, con, hx, List.range_succ] at h5
    rw [eq_div_iff hκ0.ne'] at h5
    linarith
  · rw [f1']; exact f3.1
  · rw [f1']; exact f4

end Verif.Whole
