import Verif.Lemmas.Solve
import Mathlib.Tactic.NormNum
import Mathlib.Tactic.Positivity
import Mathlib.Algebra.Order.Ring.Rat

/-!
# Properties of the optimisation loop (C25-C29, C49, C50)

The oracles (factorizations, line search, divergence bound, norms of the directions, objective
values, residuals) are arbitrary throughout.  `0 ≤ kMin sqrt cfg` says that `std::sqrt` returned a
non-negative number for the lower limit of the barrier parameter.
-/

namespace Verif.SolveLoop

open Spec

/-! ### Concrete runs -/

/-- A configuration with small numbers: 6 iterations, 2 final centering steps, target 40 after
rescaling. -/
def exCfg : Config ℚ :=
  { prepareDual := false, mode := 0, invSqrtMuMax := 10, maximumMu := 100 - 1 / 10 ^ 15,
    lineSearch := false, finalSteps := 2, finalTol := 1 / 100, initWarm := 0, initCold := 0,
    warmAbort := 2, maxIter := 6, infeasThreshold := 1000, kktTol := 10 ^ 10, rescaling := true }

/-- Square roots of the numbers that occur. -/
def exSqrt (x : ℚ) : ℚ := if x = 1 / 1600 then 1 / 40 else if x = 1 / 100 then 1 / 10 else 1

/-- A program with one constraint, never solved before. -/
def exProg : Prog ℚ :=
  { quadratic := false, constraints := 1, initialized := false, stats := none,
    status := ⟨false, none, false, false⟩ }

/-- Oracles: the factorizations succeed, the barrier parameter grows by a factor of three, the norms
of the directions are 3, 2, 1, 1/200, ... -/
def exOracle : Oracle ℚ :=
  { factorOk := fun _ => true
    lineSearch := fun _ => -1
    divergence := fun i => 3 ^ (2 * i + 1)
    norm := fun i => [3, 2, 1].getD i (1 / 200)
    cx := fun _ => 1
    bY := fun _ => 1
    kkt := fun _ => 0
    bNorm := 3
    aqcNorm := 3 }

/-- The run: three updates of the parameter, one centering step, then success. -/
example : (solve exSqrt exProg exCfg exOracle).toOption.map
      (fun r => (r.ret, r.prog.status, r.out, r.final)) =
    some (true, ⟨true, some 4, false, false⟩, .scaled (some 3) 40 (1 / 4), some (40, 40)) := by
  decide +kernel

example : 0 ≤ kMin exSqrt exCfg := by decide +kernel

variable {R : Type} [Field R] [LinearOrder R] [IsStrictOrderedRing R]
variable {sqrt : R → R} {cfg : Config R} {o : Oracle R} {p : Prog R} {r : Result R}

/-! ### C25 -/

/-- A solve performs at most `max_iterations` factorizations (plus the one of the dual preparation)
and at most `max_iterations` steps; it never makes more centering steps than configured; and the
count it reports, if the loop was left normally after some iteration was completed, is that of the
last completed iteration (counted from one). -/
theorem C25_bounded (hk : 0 ≤ kMin sqrt cfg) (h : solve sqrt p cfg o = .ok r) :
    factorizations r.trace ≤ cfg.maxIter.toNat + (if cfg.prepareDual then 1 else 0) ∧
    steps r.trace ≤ cfg.maxIter.toNat ∧
    (centeringSteps r.trace : Int) ≤ max 0 cfg.finalSteps ∧
    (∀ j, r.final.isSome → lastCompleted r.trace = some j → r.prog.status.numIter = some (j + 1)) := by
  by_cases ha : p.quadratic = false ∨ (cfg.lineSearch = true ∧ cfg.rescaling = false)
  swap
  · unfold solve at h
    rw [if_pos ha] at h
    cases h
    simp [factorizations, steps, centeringSteps]
  by_cases hc : p.constraints = 0
  · unfold solve at h
    have hc' : (clearStatus p).constraints = 0 := hc
    rw [if_neg (not_not.2 ha)] at h
    simp only [hc', if_true, Outcome.ok.injEq] at h
    subst h
    simp [factorizations, steps, centeringSteps]
  obtain ⟨p', st, -, -, -, -, c, s, hl, hr⟩ := solve_ok ha hc h
  have hE := exit_loop hk hl
  rcases hr with ⟨rfl, rfl⟩ | ⟨rfl, rfl⟩ | ⟨rfl, hp⟩
  · obtain ⟨i, s0, hi, hI, -, ht⟩ := hE
    have h1 := hI.facts
    have h2 := hI.stps
    have h3 := hI.cen
    have h4 := hI.cenLe
    simp only [ht, factorizations, steps, centeringSteps]
    exact ⟨by omega, by omega, by omega, by simp⟩
  · obtain ⟨i, s0, hi, hI, ht, -⟩ := hE
    have h1 := hI.facts
    have h2 := hI.stps
    have h3 := hI.cen
    have h4 := hI.cenLe
    simp only [ht, factorizations, steps, centeringSteps]
    exact ⟨by omega, by omega, by omega, by simp⟩
  · obtain ⟨i, hi, hI, -⟩ := hE
    obtain ⟨n, hn, -, hs, -, ht, -, -⟩ := post_ok hp
    have h1 := hI.facts
    have h2 := hI.stps
    have h3 := hI.cen
    have h4 := hI.cenLe
    rw [ht, factorizations_dual, steps_dual, centering_dual, lastCompleted_dual]
    refine ⟨by omega, by omega, by omega, fun j _ hj => ?_⟩
    rw [hs]
    simp only
    rw [← hn, (hI.onSome j hj).1]

/-- On a cold start with at least one iteration, and with a final centering budget or meaningful
targets, the solve returns: no undefined behaviour, and if the loop is left normally an iteration
was completed. -/
theorem C25_returns (hk : 0 ≤ kMin sqrt cfg) (hm : cfg.mode = 0) (hN : 1 ≤ cfg.maxIter)
    (hf : 1 ≤ cfg.finalSteps ∨ (0 < cfg.invSqrtMuMax ∧ 0 ≤ cfg.kktTol)) :
    ∃ r, solve sqrt p cfg o = .ok r ∧ (r.final.isSome → (lastCompleted r.trace).isSome) := by
  by_cases ha : p.quadratic = false ∨ (cfg.lineSearch = true ∧ cfg.rescaling = false)
  swap
  · unfold solve
    rw [if_pos ha]
    exact ⟨_, rfl, by simp⟩
  by_cases hc : p.constraints = 0
  · unfold solve
    have hc' : (clearStatus p).constraints = 0 := hc
    rw [if_neg (not_not.2 ha)]
    simp only [hc', if_true]
    exact ⟨_, rfl, by simp⟩
  unfold solve
  have hc' : ¬ (clearStatus p).constraints = 0 := hc
  rw [if_neg (not_not.2 ha)]
  simp only [hc', if_false]
  have hini : ∃ st, (initProgram (clearStatus p) cfg).stats = some st ∧ st.bScale.isSome ∧
      st.cScale.isSome ∧ st.cap = cfg.maxIter := by
    simp [initProgram, hm]
  obtain ⟨st, hst, hb, hcs, hcap⟩ := hini
  obtain ⟨c, s, hl⟩ := loop_ok (sqrt := sqrt) (cfg := cfg)
    (q := (initProgram (clearStatus p) cfg).quadratic) (o := o) hb hcs (by omega)
  simp only [hst, hl, Outcome.bind_ok]
  cases c with
  | fail => exact ⟨_, rfl, by simp⟩
  | demand => exact ⟨_, rfl, by simp⟩
  | next => exact absurd (exit_loop hk hl) (by simp [Exit])
  | brk =>
    have hE := exit_loop hk hl
    obtain ⟨i, hi, hI, -⟩ := hE
    have hlc := loop_completes hk (by omega) hN hf hl
    obtain ⟨j, hj⟩ := Option.ne_none_iff_exists'.1 hlc
    have hn := (hI.onSome j hj).1
    obtain ⟨c, hc⟩ := Option.isSome_iff_exists.1 (loop_scales hb hcs (by omega) hl)
    have : ∃ r, post cfg (initProgram (clearStatus p) cfg) s = .ok r := by
      unfold post output
      simp only [hn, hc, readVar, Outcome.bind_ok]
      split_ifs <;> exact ⟨_, rfl⟩
    obtain ⟨r, hr⟩ := this
    refine ⟨r, hr, fun _ => ?_⟩
    obtain ⟨-, -, -, -, -, ht, -, -⟩ := post_ok hr
    rw [ht, lastCompleted_dual, hj]
    rfl

/-- The hypotheses of `C25_returns` hold for the example run. -/
example : 0 ≤ kMin exSqrt exCfg ∧ exCfg.mode = 0 ∧ 1 ≤ exCfg.maxIter ∧ 1 ≤ exCfg.finalSteps := by
  decide +kernel

/-- With dual preparation the number of factorizations really can exceed the iteration limit. -/
theorem C25_extra_factorization :
    (solve exSqrt exProg { exCfg with prepareDual := true, maxIter := 1 } exOracle).toOption.map
      (fun r => factorizations r.trace) = some 2 := by
  decide +kernel

/-- The reported count is not set when a factorization fails: after two completed iterations and a
failure in the third, the status still holds the indeterminate initial value (or, in a second solve,
the count of the first). -/
theorem C50_failure_counter_violated :
    (solve exSqrt exProg exCfg { exOracle with factorOk := fun i => i < 2 }).toOption.map
      (fun r => (r.ret, lastCompleted r.trace, r.prog.status.numIter)) =
    some (false, some 1, none) := by
  decide +kernel

/-- The first solve of a program in warm start mode reads scalings that were never set. -/
theorem C25_first_warm_start_undefined :
    solve exSqrt exProg { exCfg with mode := 1 } exOracle = .ub := by
  decide +kernel

/-- A second solve in warm start mode with a larger iteration limit writes past the end of the
statistics block, which was allocated for the first. -/
theorem C25_warm_start_overrun :
    (do
      let r ← solve exSqrt exProg { exCfg with maxIter := 3 } exOracle
      solve exSqrt r.prog { exCfg with mode := 1, maxIter := 6, warmAbort := 100 } exOracle) =
    .ub := by
  decide +kernel

/-- A second solve in warm start mode whose only factorization fails reports the iteration count of
the first solve. -/
theorem C50_stale_counter_violated :
    (do
      let r ← solve exSqrt exProg exCfg exOracle
      solve exSqrt r.prog { exCfg with mode := 1, maxIter := 1 }
        { exOracle with factorOk := fun _ => false }).toOption.map
      (fun r : Result ℚ => (lastCompleted r.trace, r.prog.status.numIter)) =
    some (none, some 4) := by
  decide +kernel

/-! ### C26 -/

/-- In an admissible configuration the returned value is the status flag.  If it says solved, then
the last factorization of the loop succeeded, no infeasibility flag is set, the last barrier
parameter is at most the threshold (and defined), and the loop was left because the direction was
short enough or because the centering budget was used up before the iteration limit.  Infeasibility
flags are set only when the barrier parameter exceeds the threshold, and exactly when the objective
value says so. -/
theorem C26_success (hk : 0 ≤ kMin sqrt cfg)
    (ha : p.quadratic = false ∨ (cfg.lineSearch = true ∧ cfg.rescaling = false))
    (h : solve sqrt p cfg o = .ok r) :
    r.ret = r.prog.status.solved ∧
    (r.ret = true →
      (∃ j k, lastCompleted r.trace = some j ∧ lastFactor r.trace = some (j, true) ∧
        lastParameter r.trace = some k ∧ k ≠ 0 ∧ 1 / k * (1 / k) ≤ cfg.infeasThreshold ∧
        (|o.norm j| ≤ cfg.finalTol ∨
          (cfg.finalSteps ≤ centeringSteps r.trace ∧ (j : Int) + 2 < cfg.maxIter)) ∧
        ∃ c, r.out = .scaled (some j) k c) ∧
      r.prog.status.primalInf = false ∧ r.prog.status.dualInf = false) ∧
    (r.prog.status.primalInf = true ∨ r.prog.status.dualInf = true →
      r.ret = false ∧ ∃ j k, lastCompleted r.trace = some j ∧ lastParameter r.trace = some k ∧
        (k = 0 ∨ cfg.infeasThreshold < 1 / k * (1 / k)) ∧
        (r.prog.status.primalInf = true ↔ o.cx j * k ≤ -(1 / 2)) ∧
        (r.prog.status.dualInf = true ↔ 1 / 2 ≤ o.bY j * k)) := by
  by_cases hc : p.constraints = 0
  · unfold solve at h
    have hc' : (clearStatus p).constraints = 0 := hc
    rw [if_neg (not_not.2 ha)] at h
    simp only [hc', if_true, Outcome.ok.injEq] at h
    subst h
    simp [clearStatus]
  obtain ⟨p', st, -, -, -, hst, c, s, hl, hr⟩ := solve_ok ha hc h
  have hE := exit_loop hk hl
  rcases hr with ⟨rfl, rfl⟩ | ⟨rfl, rfl⟩ | ⟨rfl, hp⟩
  · simp [hst]
  · obtain ⟨i, s0, hi, hI, ht, hls⟩ := hE
    exfalso
    -- the exit at line 387 needs quadratic costs, which an admissible configuration combines with
    -- the line search
    have hq : p.quadratic = true := by
      have := loop_inv (sqrt := sqrt) (cfg := cfg) (q := p.quadratic) (o := o)
        (N := cfg.maxIter.toNat) (I := fun _ _ => True)
        (Q := fun c _ => c = .demand → p.quadratic = true)
        (fun i s c s' _ _ hb => ⟨fun _ => trivial, fun _ hc => by
          subst hc
          rcases body_ok hb with ⟨h, -⟩ | ⟨-, s1, -, h⟩
          · cases h
          rcases h with ⟨-, -, -, h', -⟩ | ⟨-, -, h', -⟩ | ⟨-, -, h', -⟩ | ⟨-, s2, -, hfin⟩
          · cases h'
          · cases h'
          · exact (chooseMu_none h').2.1
          · obtain ⟨-, -, -, h4⟩ := finish_ok hfin
            rcases h4 with ⟨h', -⟩ | ⟨h', -⟩ <;> cases h'⟩)
        (fun s _ h => by cases h) _ 0 _ .demand s (by omega) trivial hl
      exact this rfl
    rcases ha with ha | ha
    · rw [hq] at ha; cases ha
    · rw [hls] at ha; cases ha.1
  · obtain ⟨i, hi, hI, hX⟩ := hE
    obtain ⟨n, hn, hret, hs, -, ht, -, hout⟩ := post_ok hp
    rw [ht, lastFactor_dual, lastParameter_dual, centering_dual, lastCompleted_dual]
    refine ⟨by rw [hs], fun hsol => ?_, fun hinf => ?_⟩
    · rw [hret] at hsol
      simp only [Bool.and_eq_true, Bool.not_eq_true'] at hsol
      obtain ⟨ho, hm⟩ := hsol
      have ho' := ho
      simp only [overThreshold, Bool.or_eq_false_iff, decide_eq_false_iff_not, not_lt] at ho'
      refine ⟨?_, by simp [hs, ho], by simp [hs, ho]⟩
      cases hlc : lastCompleted s.trace with
      | none => exact absurd (hI.onNone hlc).2.1 ho'.1
      | some j =>
        obtain ⟨-, hj, hf, hpar, -⟩ := hI.onSome j hlc
        refine ⟨j, s.k, rfl, hf, hpar, ho'.1, ho'.2, ?_, ?_⟩
        · rcases hX hm with ⟨j', hj', hn⟩ | ⟨h1, h2⟩
          · rw [hlc] at hj'
            cases hj'
            exact .inl hn
          · refine .inr ⟨?_, by omega⟩
            rw [hI.cen]
            exact h1
        · rcases hout with ⟨h1, -⟩ | ⟨-, c, -, h2⟩
          · rw [ho] at h1; cases h1
          · exact ⟨c, by rw [h2, hI.y, hlc]⟩
    · have ho : overThreshold cfg s.k = true := by
        rw [hs] at hinf
        simp only [Bool.and_eq_true] at hinf
        rcases hinf with h | h <;> exact h.1
      refine ⟨by rw [hret]; simp [ho], ?_⟩
      cases hlc : lastCompleted s.trace with
      | none =>
        exfalso
        obtain ⟨-, h1, h2, h3, -⟩ := hI.onNone hlc
        rw [hs] at hinf
        simp only [h1, mul_zero, Bool.and_eq_true, decide_eq_true_eq] at hinf
        rcases hinf with h | h <;> linarith [h.2]
      | some j =>
        obtain ⟨-, hj, hf, hpar, -, hcx, hby⟩ := hI.onSome j hlc
        refine ⟨j, s.k, rfl, hpar, by simpa [overThreshold] using ho, ?_, ?_⟩
        · simp [hs, ho, hcx]
        · simp [hs, ho, hby]

/-- The example run meets the hypotheses of `C26_success` and reports success. -/
example : (exProg.quadratic = false) ∧
    (solve exSqrt exProg exCfg exOracle).toOption.map (·.ret) = some true := by
  decide +kernel

/-- A run in which the barrier parameter stays above the threshold and the objective value reports
infeasibility. -/
example : (solve exSqrt exProg { exCfg with infeasThreshold := 1 / 100 }
      { exOracle with divergence := fun _ => 0, cx := fun _ => -10 }).toOption.map
      (fun r => (r.ret, r.prog.status)) = some (false, ⟨false, some 5, true, false⟩) := by
  decide +kernel

/-! ### C27 -/

/-- A solve reports success although the barrier parameter is above the requested target: the final
centering phase starts when few iterations are left, whatever the parameter is.  Here the requested
final value of `1/√μ` is 40 and the value reached is 1/10. -/
theorem C27_target_violated :
    (solve exSqrt exProg exCfg { exOracle with divergence := fun _ => 0 }).toOption.map
      (fun r => (r.ret, r.final)) = some (true, some (1 / 10, 40)) := by
  decide +kernel

/-- It also happens after an abandoned warm start, with most of the iterations left. -/
theorem C27_warm_start_violated :
    (do
      let r ← solve exSqrt exProg { exCfg with maxIter := 20 } exOracle
      solve exSqrt r.prog { exCfg with mode := 1, maxIter := 20 }
        { exOracle with
          divergence := fun i => if i = 0 then 100 else 1,
          norm := fun i => if i = 0 then 2 else 0 }).toOption.map
      (fun r : Result ℚ => (r.ret, r.prog.status.numIter, r.final)) =
    some (true, some 2, some (1, 40)) := by
  decide +kernel

/-- The full property: success means that the target was reached.  It holds without warm start, if
the residual never exceeds its tolerance, for runs that end before the final centering phase is
forced by the iteration limit: then the final parameter reaches its target, and with rescaling the
barrier parameter of the unscaled problem is at most `1 / inv_sqrt_mu_max²`.  Missing: the other
runs, for which the property fails (`C27_target_violated`, `C27_warm_start_violated`). -/
theorem C27_target_partial (hk : 0 ≤ kMin sqrt cfg) (hm : cfg.mode ≠ 1)
    (ha : p.quadratic = false ∨ (cfg.lineSearch = true ∧ cfg.rescaling = false))
    (hM : 0 < cfg.invSqrtMuMax) (h0 : 0 ≤ cfg.kktTol) (hkkt : ∀ i, o.kkt i ≤ cfg.kktTol)
    (h : solve sqrt p cfg o = .ok r) (hsol : r.ret = true)
    {n : Nat} (hn : r.prog.status.numIter = some n) (hlt : n + cfg.finalSteps < cfg.maxIter) :
    ∃ k, lastParameter r.trace = some k ∧
      (cfg.rescaling = false → cfg.invSqrtMuMax ≤ k) ∧
      (cfg.rescaling = true → ∃ st b c, r.prog.stats = some st ∧ st.bScale = some b ∧
        st.cScale = some c ∧
        (0 < b → 0 < c → SqrtAt sqrt (1 / (cfg.invSqrtMuMax * cfg.invSqrtMuMax) * (b * c)) →
          1 / k * (1 / k) / (c * b) ≤ 1 / (cfg.invSqrtMuMax * cfg.invSqrtMuMax))) := by
  have hC := C26_success hk ha h
  obtain ⟨⟨j, k, hj, -, hpar, hk0, -⟩, -⟩ := hC.2.1 hsol
  have hc : p.constraints ≠ 0 := by
    intro hc
    unfold solve at h
    have hc' : (clearStatus p).constraints = 0 := hc
    rw [if_neg (not_not.2 ha)] at h
    simp only [hc', if_true, Outcome.ok.injEq] at h
    subst h
    simp at hsol
  obtain ⟨p', st, -, -, -, hst, c, s, hl, hr⟩ := solve_ok ha hc h
  rcases hr with ⟨rfl, rfl⟩ | ⟨rfl, rfl⟩ | ⟨rfl, hp⟩
  · cases hsol
  · rw [hC.1] at hsol
    simp [hst] at hsol
  obtain ⟨i, hi, hI, -⟩ := exit_loop hk hl
  obtain ⟨hX, hT⟩ := exit2_loop hk hm hM h0 hkkt hl
  obtain ⟨n', hn', hret, hs, hstats, ht, -, -⟩ := post_ok hp
  rw [ht, lastCompleted_dual] at hj
  rw [ht, lastParameter_dual] at hpar ⊢
  have hS := hI.onSome j hj
  rw [hret] at hsol
  simp only [Bool.and_eq_true, Bool.not_eq_true'] at hsol
  have hkk : k = s.k := by
    have := hS.2.2.2.1
    rw [hpar] at this
    exact Option.some.inj this
  have hnn : n = j + 1 := by
    rw [hs] at hn
    simp only at hn
    rw [← hn', hS.1] at hn
    exact (Option.some.inj hn).symm
  have hge : s.kMax ≤ s.k := by
    rcases hX hsol.2 with h | h
    · exact h
    · have := h j hj
      omega
  have hT := hT (by rw [hj]; simp)
  refine ⟨k, hpar, fun hre => ?_, fun hre => ?_⟩
  · simp only [Target, hre] at hT
    rw [hkk, ← show s.kMax = cfg.invSqrtMuMax by simpa using hT]
    exact hge
  · simp only [Target, hre, if_true] at hT
    obtain ⟨b, c, hb, hc, hK⟩ := hT
    refine ⟨s.stats, b, c, hstats, hb, hc, fun hb0 hc0 hsq => ?_⟩
    generalize hx : 1 / (cfg.invSqrtMuMax * cfg.invSqrtMuMax) * (b * c) = x at *
    have hxpos : 0 < x := by rw [← hx]; positivity
    have hspos : 0 < sqrt x := by
      rcases hsq.1.lt_or_eq with h | h
      · exact h
      · have := hsq.2
        rw [← h] at this
        simp at this
        exact absurd this hxpos.ne
    have hkpos : 0 < k := by
      rw [hkk]
      refine lt_of_lt_of_le ?_ hge
      rw [hK]
      positivity
    have h1 : 1 / k ≤ sqrt x := by
      rw [div_le_iff₀ hkpos]
      rw [hK, ← hkk, div_le_iff₀ hspos] at hge
      linarith
    have h2 : 1 / k * (1 / k) ≤ x := by
      rw [← hsq.2]
      have : 0 ≤ 1 / k := by positivity
      exact mul_le_mul h1 h1 this hspos.le
    rw [div_le_iff₀ (by positivity)]
    calc 1 / k * (1 / k) ≤ x := h2
      _ = _ := by rw [← hx, mul_comm b c]

/-- The example run, with more iterations, meets the hypotheses of `C27_target_partial`. -/
example : (solve exSqrt exProg { exCfg with maxIter := 20 } exOracle).toOption.map
      (fun r => (r.ret, r.prog.status.numIter, r.prog.stats.map fun st => (st.bScale, st.cScale))) =
      some (true, some 4, some (some (1 / 4), some (1 / 4))) ∧
    (4 : Int) + exCfg.finalSteps < 20 ∧
    SqrtAt exSqrt (1 / (exCfg.invSqrtMuMax * exCfg.invSqrtMuMax) * (1 / 4 * (1 / 4))) := by
  unfold SqrtAt
  decide +kernel

/-! ### C28 -/

/-- A solve of a program with quadratic costs in an inadmissible configuration returns the value
that means 'solved', having done nothing: the output is not written and the status is that of the
previous solve. -/
theorem C28_inadmissible_violated (hq : p.quadratic = true)
    (hc : cfg.lineSearch = false ∨ cfg.rescaling = true) :
    solve sqrt p cfg o = .ok ⟨true, p, .untouched, [], none⟩ := by
  unfold solve
  rw [if_pos (by rcases hc with hc | hc <;> simp [hq, hc])]

/-- The default configuration is inadmissible for quadratic costs (`exCfg` shares these two default
settings). -/
example : ({ exProg with quadratic := true } : Prog ℚ).quadratic = true ∧
    (exCfg.lineSearch = false ∨ exCfg.rescaling = true) := by
  decide

/-- The full property: error exits are reported as failures.  It holds for admissible
configurations: a solve that does not get past the loop returns 'not solved' and does not write a
solution.  In particular the exit for a failed line search (line 387) is never taken.  Missing: the
inadmissible configurations (`C28_inadmissible_violated`). -/
theorem C28_error_exits_partial (hk : 0 ≤ kMin sqrt cfg)
    (ha : p.quadratic = false ∨ (cfg.lineSearch = true ∧ cfg.rescaling = false))
    (h : solve sqrt p cfg o = .ok r) (hf : r.final = none) :
    r.ret = false ∧ r.prog.status.solved = false ∧ (r.out = .untouched ∨ r.out = .infinite) := by
  by_cases hc : p.constraints = 0
  · unfold solve at h
    have hc' : (clearStatus p).constraints = 0 := hc
    rw [if_neg (not_not.2 ha)] at h
    simp only [hc', if_true, Outcome.ok.injEq] at h
    subst h
    simp [clearStatus]
  have hC := C26_success hk ha h
  obtain ⟨p', st, -, -, -, hst, c, s, hl, hr⟩ := solve_ok ha hc h
  rcases hr with ⟨rfl, rfl⟩ | ⟨rfl, rfl⟩ | ⟨rfl, hp⟩
  · simp [hst]
  · have := hC.1
    simp [hst] at this
  · obtain ⟨-, -, -, -, -, -, h, -⟩ := post_ok hp
    rw [h] at hf
    cases hf

/-- A run that meets the hypotheses: the third factorization fails. -/
example : (solve exSqrt exProg exCfg { exOracle with factorOk := fun i => i < 2 }).toOption.map
      (fun r => (r.final, r.ret, r.out)) = some (none, false, .untouched) := by
  decide +kernel

/-- A failed line search is not an error at all: with quadratic costs and a line search that fails
in every iteration, the solve goes on with the lower limit of the parameter and reports success. -/
theorem C28_failed_line_search_solved :
    (solve exSqrt { exProg with quadratic := true }
      { exCfg with lineSearch := true, rescaling := false }
      { exOracle with lineSearch := fun _ => -1 }).toOption.map
      (fun r => (r.ret, r.final)) = some (true, some (1 / 10, 10)) := by
  decide +kernel

/-! ### C29 -/

/-- The step size is in `(0, 1]`, is one exactly when the square of the norm is at most two, and its
product with the square of the norm is at most two: it is the largest such number in `(0, 1]`. -/
theorem C29_step_size (n : R) :
    0 < stepSize n ∧ stepSize n ≤ 1 ∧ (stepSize n = 1 ↔ n * n ≤ 2) ∧ stepSize n * (n * n) ≤ 2 ∧
    ∀ t, t ≤ 1 → t * (n * n) ≤ 2 → t ≤ stepSize n := by
  unfold stepSize
  by_cases h0 : n = 0
  · subst h0
    simp
  have hp : 0 < n * n := mul_self_pos.2 h0
  rw [if_neg h0]
  split_ifs with h1
  · rw [lt_div_iff₀ hp] at h1
    exact ⟨one_pos, le_rfl, by simp; linarith, by linarith, fun t ht _ => ht⟩
  · have h1' : 2 / (n * n) ≤ 1 := not_lt.1 h1
    refine ⟨by positivity, h1', ?_, ?_, fun t _ ht => ?_⟩
    · rw [div_le_one hp] at h1'
      rw [div_eq_one_iff_eq hp.ne']
      exact ⟨fun h => h.ge, fun h => le_antisymm h1' h⟩
    · rw [div_mul_cancel₀ _ hp.ne']
    · rw [le_div_iff₀ hp]
      exact ht

/-- Every step of a run has that size. -/
theorem C29_steps (hk : 0 ≤ kMin sqrt cfg) (h : solve sqrt p cfg o = .ok r) {j : Nat} {z : R}
    (hz : Ev.step j z ∈ r.trace) :
    0 < z ∧ z ≤ 1 ∧ (z = 1 ↔ o.norm j * o.norm j ≤ 2) ∧ z * (o.norm j * o.norm j) ≤ 2 := by
  have hmain : z = stepSize (o.norm j) := by
    by_cases ha : p.quadratic = false ∨ (cfg.lineSearch = true ∧ cfg.rescaling = false)
    swap
    · unfold solve at h
      rw [if_pos ha] at h
      cases h
      simp at hz
    by_cases hc : p.constraints = 0
    · unfold solve at h
      have hc' : (clearStatus p).constraints = 0 := hc
      rw [if_neg (not_not.2 ha)] at h
      simp only [hc', if_true, Outcome.ok.injEq] at h
      subst h
      simp at hz
    obtain ⟨p', st, -, -, -, -, c, s, hl, hr⟩ := solve_ok ha hc h
    have hE := exit_loop hk hl
    rcases hr with ⟨rfl, rfl⟩ | ⟨rfl, rfl⟩ | ⟨rfl, hp⟩
    · obtain ⟨i, s0, hi, hI, -, ht⟩ := hE
      simp only [ht] at hz
      exact hI.sizes j z (by simpa using hz)
    · obtain ⟨i, s0, hi, hI, ht, -⟩ := hE
      simp only [ht] at hz
      exact hI.sizes j z (by simpa using hz)
    · obtain ⟨i, hi, hI, -⟩ := hE
      obtain ⟨n, hn, -, hs, -, ht, -, -⟩ := post_ok hp
      rw [ht] at hz
      refine hI.sizes j z ?_
      split_ifs at hz
      · simpa using hz
      · exact hz
  have := C29_step_size (o.norm j)
  rw [hmain]
  exact ⟨this.1, this.2.1, this.2.2.1, this.2.2.2.1⟩

/-- The steps of the example run: norms 3, 2, 1 and 1/200. -/
example : (solve exSqrt exProg exCfg exOracle).toOption.map
      (fun r => r.trace.filter fun e => match e with | .step _ _ => true | _ => false) =
    some [.step 3 1, .step 2 1, .step 1 (1 / 2), .step 0 (2 / 9)] := by
  decide +kernel

/-! ### C49 -/

/-- The barrier parameter of every iteration is at most the configured maximum (plus `1e-15`). -/
theorem C49_maximum_mu (hpos : 0 < 1 / 10 ^ 15 + cfg.maximumMu)
    (hsq : SqrtAt sqrt (1 / (1 / 10 ^ 15 + cfg.maximumMu)))
    (h : solve sqrt p cfg o = .ok r) {k : R} {j : Nat} {u v : Bool}
    (hp : Ev.direction j u v k ∈ r.trace) :
    0 < k ∧ 1 / k * (1 / k) ≤ 1 / 10 ^ 15 + cfg.maximumMu := by
  have hk : 0 ≤ kMin sqrt cfg := hsq.1
  have hkk : kMin sqrt cfg ≤ k := by
    by_cases ha : p.quadratic = false ∨ (cfg.lineSearch = true ∧ cfg.rescaling = false)
    swap
    · unfold solve at h
      rw [if_pos ha] at h
      cases h
      simp at hp
    by_cases hc : p.constraints = 0
    · unfold solve at h
      have hc' : (clearStatus p).constraints = 0 := hc
      rw [if_neg (not_not.2 ha)] at h
      simp only [hc', if_true, Outcome.ok.injEq] at h
      subst h
      simp at hp
    obtain ⟨p', st, -, -, -, -, c, s, hl, hr⟩ := solve_ok ha hc h
    have hE := exit_loop hk hl
    rcases hr with ⟨rfl, rfl⟩ | ⟨rfl, rfl⟩ | ⟨rfl, hpo⟩
    · obtain ⟨i, s0, hi, hI, -, ht⟩ := hE
      simp only [ht] at hp
      exact hI.pars _ _ _ _ (by simpa using hp)
    · obtain ⟨i, s0, hi, hI, ht, -⟩ := hE
      simp only [ht] at hp
      exact hI.pars _ _ _ _ (by simpa using hp)
    · obtain ⟨i, hi, hI, -⟩ := hE
      obtain ⟨n, hn, -, hs, -, ht, -, -⟩ := post_ok hpo
      rw [ht] at hp
      refine hI.pars j u v k ?_
      split_ifs at hp
      · simpa using hp
      · exact hp
  unfold kMin at hkk hk
  generalize hm : 1 / 10 ^ 15 + cfg.maximumMu = m at *
  have hspos : 0 < sqrt (1 / m) := by
    rcases hsq.1.lt_or_eq with h | h
    · exact h
    · have := hsq.2
      rw [← h] at this
      simp at this
      exact absurd this hpos.ne
  have hkpos : 0 < k := hspos.trans_le hkk
  refine ⟨hkpos, ?_⟩
  have h1 : 1 / m ≤ k * k := by
    rw [← hsq.2]
    exact mul_le_mul hkk hkk hspos.le hkpos.le
  rw [div_mul_div_comm, one_mul, div_le_iff₀ (by positivity)]
  rw [div_le_iff₀ hpos] at h1
  linarith

/-- The full property: an infeasible program can be reported as such.  It fails in every
configuration whose infeasibility threshold is at least the configured maximum of the barrier
parameter: there, whatever the cones and the linear algebra answer, neither flag is ever set. -/
theorem C49_never_infeasible_violated (hpos : 0 < 1 / 10 ^ 15 + cfg.maximumMu)
    (hsq : SqrtAt sqrt (1 / (1 / 10 ^ 15 + cfg.maximumMu)))
    (hthr : 1 / 10 ^ 15 + cfg.maximumMu ≤ cfg.infeasThreshold)
    (ha : p.quadratic = false ∨ (cfg.lineSearch = true ∧ cfg.rescaling = false))
    (h : solve sqrt p cfg o = .ok r) :
    r.prog.status.primalInf = false ∧ r.prog.status.dualInf = false := by
  have hC := (C26_success hsq.1 ha h).2.2
  by_contra hcon
  have : r.prog.status.primalInf = true ∨ r.prog.status.dualInf = true := by
    cases h1 : r.prog.status.primalInf <;> cases h2 : r.prog.status.dualInf <;> simp_all
  obtain ⟨-, j, k, -, hpar, hbad, -⟩ := hC this
  have hmem : ∃ j u v, Ev.direction j u v k ∈ r.trace := by
    generalize r.trace = t at hpar
    induction t with
    | nil => simp [lastParameter] at hpar
    | cons e t ih =>
      cases e with
      | direction j u v k' =>
        simp only [lastParameter, Option.some.injEq] at hpar
        subst hpar
        exact ⟨j, u, v, by simp⟩
      | _ =>
        obtain ⟨j, u, v, h⟩ := ih (by simpa [lastParameter] using hpar)
        exact ⟨j, u, v, by simp [h]⟩
  obtain ⟨j, u, v, hmem⟩ := hmem
  obtain ⟨h1, h2⟩ := C49_maximum_mu hpos hsq h hmem
  rcases hbad with h | h
  · exact h1.ne' h
  · linarith

/-- The default settings `maximum_mu = 1e4` and `infeasibility_threshold = 1e5`
(`/repo/conex/cone_program.h` 23, 33) are of this kind. -/
example : (0 : ℚ) < 1 / 10 ^ 15 + 10 ^ 4 ∧ (1 : ℚ) / 10 ^ 15 + 10 ^ 4 ≤ 10 ^ 5 := by
  decide +kernel

/-- So is the example configuration, for which the square root is exact. -/
example : 0 < 1 / 10 ^ 15 + exCfg.maximumMu ∧ SqrtAt exSqrt (1 / (1 / 10 ^ 15 + exCfg.maximumMu)) ∧
    1 / 10 ^ 15 + exCfg.maximumMu ≤ exCfg.infeasThreshold := by
  unfold SqrtAt
  decide +kernel

end Verif.SolveLoop
