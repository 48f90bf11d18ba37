import Verif.Lemmas.Solve

/-!
# Runs of the optimisation loop with a fixed barrier parameter

The lower and the upper limit of the barrier parameter agree, so that every iteration is a centering
iteration (used for witnesses of C71).
-/

namespace Verif.SolveLoop

open Spec

variable {R : Type} [Field R] [LinearOrder R] [IsStrictOrderedRing R]
variable {sqrt : R → R} {cfg : Config R} {q : Bool} {o : Oracle R} {K : R}

/-- The configuration: limits of the barrier parameter `K`, cold start, no rescaling. -/
structure Fixed (sqrt : R → R) (cfg : Config R) (K : R) : Prop where
  pos : 0 < K
  min : kMin sqrt cfg = K
  max : cfg.invSqrtMuMax = K
  mode : cfg.mode = 0
  rescaling : cfg.rescaling = false
  cold : cfg.initCold = 0
  kkt : 0 ≤ cfg.kktTol
  iters : cfg.finalSteps + 2 < cfg.maxIter

/-- The state before iteration `i + 1`. -/
structure St (cfg : Config R) (K : R) (i : Nat) (s : State R) : Prop where
  k : s.k = K
  kMax : s.kMax = K
  kkt : s.kkt ≤ cfg.kktTol
  y : s.y = some i
  b : s.stats.bScale = some 1
  c : s.stats.cScale = some 1
  n : s.stats.numIter = some (i + 1)
  cap : s.stats.cap = cfg.maxIter
  cen : s.centering = i
  aborted : s.aborted = false

theorem applyLimits_self (x K : R) : applyLimits x K K = K := by
  unfold applyLimits
  simp only
  split_ifs with h1 h2 h3
  · exact absurd h2 (lt_irrefl _)
  · rfl
  · rfl
  · exact le_antisymm (not_lt.1 h1) (not_lt.1 h3)

/-- The end of an iteration. -/
theorem fixed_finish (h : Fixed sqrt cfg K) {i : Nat} {s : State R} (hb : s.stats.bScale = some 1)
    (hc : s.stats.cScale = some 1) (hcap : s.stats.cap = cfg.maxIter) (hM : s.kMax = K)
    (hi : (i : Int) < cfg.maxIter) (hs : s.kkt ≤ cfg.kktTol) (hk : o.kkt i ≤ cfg.kktTol)
    (hcen : s.centering = i) (fc upd : Bool) :
    ∃ s', finish sqrt cfg q o i fc upd s = .ok (if |o.norm i| ≤ cfg.finalTol then .brk else .next, s') ∧
      St cfg K i s' ∧ s'.maxReached = (s.maxReached && !decide (|o.norm i| ≤ cfg.finalTol)) := by
  have hm : ¬ cfg.mode = 1 := by rw [h.mode]; decide
  have hkk : (if q = true then s.kkt else o.kkt i) ≤ cfg.kktTol := by
    cases q
    · exact hk
    · exact hs
  unfold finish
  simp only [hb, hc, readVar, Outcome.bind_ok, hcap, not_le.2 hi, if_false, hM, h.min, applyLimits_self,
    le_refl, decide_true, Bool.or_true, true_and, hm, decide_false, Bool.and_false, Bool.false_and]
  by_cases hn : |o.norm i| ≤ cfg.finalTol
  · simp only [if_pos hn]
    exact ⟨_, rfl, ⟨rfl, rfl, hkk, rfl, rfl, rfl, rfl, rfl, hcen, rfl⟩, by simp [hn]⟩
  · simp only [if_neg hn]
    exact ⟨_, rfl, ⟨rfl, rfl, hkk, rfl, rfl, rfl, rfl, rfl, hcen, rfl⟩, by simp [hn]⟩

/-- The first iteration. -/
theorem fixed_first (h : Fixed sqrt cfg K) (hf : 0 ≤ cfg.finalSteps) (ho : o.factorOk 0 = true)
    (hk : o.kkt 0 ≤ cfg.kktTol)
    (hq : q = false ∨ cfg.lineSearch = true) {st : Stats R} (hb : st.bScale = some 1)
    (hc : st.cScale = some 1) (hcap : st.cap = cfg.maxIter) :
    ∃ s, body sqrt cfg q o 0 (start cfg st) =
        .ok (if |o.norm 0| ≤ cfg.finalTol then .brk else .next, s) ∧ St cfg K 0 s ∧
      s.maxReached = !decide (|o.norm 0| ≤ cfg.finalTol) := by
  have h1 : finalCentering cfg 0 (start cfg st) = false := by
    have := h.iters
    simp only [finalCentering, start, h.max, not_le.2 h.pos, not_lt.2 h.kkt, Nat.cast_zero, decide_false,
      Bool.false_or, decide_eq_false_iff_not]
    omega
  have h2 : updateMu cfg 0 (start cfg st) = true := by simp [updateMu]
  have hcand : ∃ t, candidate cfg q o 0 (0 : R) = some t := by
    unfold candidate
    simp only
    rcases hq with rfl | hl
    · simp only [Bool.false_eq_true, if_false]
      split_ifs <;> exact ⟨_, rfl⟩
    · rw [if_pos hl]
      refine ⟨_, if_neg ?_⟩
      split_ifs with h3
      · exact lt_irrefl _
      · exact h3
  obtain ⟨t, ht⟩ := hcand
  unfold body
  simp only [h1, h2, Bool.false_eq_true, false_and, if_false]
  unfold bodyMain
  simp only [rescale, h.rescaling, Bool.false_eq_true, and_false, if_false, Outcome.bind_ok, ho,
    reduceCtorEq, chooseMu, if_true, start, ht, Option.map_some]
  have hcap' : ((0 : Nat) : Int) < cfg.maxIter := by
    have := h.iters
    push_cast
    omega
  have key : ∀ x : R, ∃ s, finish sqrt cfg q o 0 false true
      { (start cfg st) with aborted := false, k := x, trace := [.factor 0 true] } =
        .ok (if |o.norm 0| ≤ cfg.finalTol then .brk else .next, s) ∧ St cfg K 0 s ∧
      s.maxReached = !decide (|o.norm 0| ≤ cfg.finalTol) := fun x =>
    fixed_finish h hb hc hcap h.max hcap' h.kkt hk (by simp [start]) false true
  by_cases h0 : 0 < t
  · simp only [if_pos h0]
    exact key t
  · simp only [if_neg h0]
    exact key (0 * (1 / 2))

/-- A further iteration, with centering steps left. -/
theorem fixed_next (h : Fixed sqrt cfg K) {i : Nat} {s : State R} (hs : St cfg K i s)
    (hi : (i : Int) < cfg.finalSteps) (ho : o.factorOk (i + 1) = true)
    (hk : o.kkt (i + 1) ≤ cfg.kktTol) (hn : ¬ |o.norm (i + 1)| ≤ cfg.finalTol) :
    ∃ s', body sqrt cfg q o (i + 1) s = .ok (.next, s') ∧ St cfg K (i + 1) s' := by
  have h1 : finalCentering cfg (i + 1) s = true := by simp [finalCentering, hs.k, hs.kMax]
  have hin : initialCentering cfg (i + 1) = false := by
    simp only [initialCentering, initialSteps, h.mode, h.cold]
    simp
    omega
  have h2 : updateMu cfg (i + 1) s = false := by simp [updateMu, h1, hs.aborted]
  have hcap' : ((i + 1 : Nat) : Int) < cfg.maxIter := by
    have := h.iters
    push_cast
    omega
  unfold body
  simp only [h1, h2, hs.cen, not_le.2 hi, and_false, if_false]
  unfold bodyMain
  simp only [rescale, h.rescaling, Bool.false_eq_true, and_false, if_false, Outcome.bind_ok, ho,
    reduceCtorEq, chooseMu, hin, if_true]
  obtain ⟨s', h3, h4, -⟩ := fixed_finish (q := q) (o := o) (i := i + 1) (s := { s with
      aborted := false, centering := s.centering + 1, trace := .factor (i + 1) true :: s.trace })
    h hs.b hs.c hs.cap hs.kMax hcap' hs.kkt hk (by simp [hs.cen]) true false
  rw [if_neg hn] at h3
  rw [hs.cen] at h3
  exact ⟨s', h3, h4⟩

/-- All centering steps are used up. -/
theorem fixed_stop (h : Fixed sqrt cfg K) {i : Nat} {s : State R} (hs : St cfg K i s)
    (hi : (i : Int) = cfg.finalSteps) :
    ∃ s', body sqrt cfg q o (i + 1) s = .ok (.brk, s') ∧ St cfg K i s' ∧ s'.maxReached = false := by
  have h1 : finalCentering cfg (i + 1) s = true := by simp [finalCentering, hs.k, hs.kMax]
  unfold body
  simp only [h1, hs.cen, hi.ge, and_self, if_true]
  refine ⟨_, rfl, ⟨hs.k, hs.kMax, hs.kkt, hs.y, hs.b, hs.c, hs.n, hs.cap, rfl, rfl⟩, ?_⟩
  have := h.iters
  simp
  omega

/-- The loop, from the second iteration. -/
theorem fixed_loop (h : Fixed sqrt cfg K) (F : Nat) (hF : cfg.finalSteps = F)
    (ho : ∀ i, o.factorOk i = true) (hk : ∀ i, o.kkt i ≤ cfg.kktTol)
    (hn : ∀ i ≤ F, ¬ |o.norm i| ≤ cfg.finalTol) :
    ∀ (d i n : Nat) (s : State R), i + d = F → d < n → St cfg K i s →
      ∃ s', loop sqrt cfg q o n (i + 1) s = .ok (.brk, s') ∧ St cfg K F s' ∧ s'.maxReached = false := by
  intro d
  induction d with
  | zero =>
    intro i n s hi hlt hs
    obtain ⟨n, rfl⟩ : ∃ m, n = m + 1 := ⟨n - 1, by omega⟩
    obtain rfl : i = F := by omega
    obtain ⟨s', h1, h2, h3⟩ := fixed_stop (q := q) (o := o) h hs hF.symm
    exact ⟨s', by simp only [loop, h1, Outcome.bind_ok, Outcome.pure_eq], h2, h3⟩
  | succ d ih =>
    intro i n s hi hlt hs
    obtain ⟨n, rfl⟩ : ∃ m, n = m + 1 := ⟨n - 1, by omega⟩
    obtain ⟨s₁, h1, h2⟩ := fixed_next (q := q) h hs (by omega) (ho _) (hk _) (hn (i + 1) (by omega))
    obtain ⟨s', h3, h4, h5⟩ := ih (i + 1) n s₁ (by omega) (by omega) h2
    exact ⟨s', by simp only [loop, h1, Outcome.bind_ok, h3], h4, h5⟩

/-- After the loop. -/
theorem fixed_post (hK : 0 < K) {i : Nat} {s : State R} (hs : St cfg K i s) (hm : s.maxReached = false)
    (ht : 1 / K * (1 / K) ≤ cfg.infeasThreshold) (p : Prog R) :
    ∃ r, post cfg p s = .ok r ∧ r.ret = true ∧ r.out = .scaled (some i) K 1 := by
  have hov : overThreshold cfg K = false := by
    simp [overThreshold, hK.ne']
    simpa using ht
  unfold post output
  simp only [hs.n, hov, hs.c, hs.y, hs.k, hm, readVar, Outcome.bind_ok, Outcome.pure_eq, Bool.false_eq_true,
    if_false, Bool.not_false, Bool.and_self]
  refine ⟨_, rfl, ?_, ?_⟩ <;> rfl

/-- The whole call. -/
theorem fixed_solve (h : Fixed sqrt cfg K) (F : Nat) (hF : cfg.finalSteps = F) {p : Prog R}
    (ha : p.quadratic = false ∨ cfg.lineSearch = true) (hc : p.constraints ≠ 0)
    (ho : ∀ i, o.factorOk i = true) (hk : ∀ i, o.kkt i ≤ cfg.kktTol)
    (ht : 1 / K * (1 / K) ≤ cfg.infeasThreshold) (j : Nat)
    (hj : (j = 0 ∧ |o.norm 0| ≤ cfg.finalTol) ∨ (j = F ∧ ∀ i ≤ F, ¬ |o.norm i| ≤ cfg.finalTol)) :
    ∃ r, solve sqrt p cfg o = .ok r ∧ r.ret = true ∧ r.out = .scaled (some j) K 1 := by
  have ha' : p.quadratic = false ∨ (cfg.lineSearch = true ∧ cfg.rescaling = false) :=
    ha.imp id fun hl => ⟨hl, h.rescaling⟩
  have hc' : ¬ (clearStatus p).constraints = 0 := hc
  have hN : ∃ n, cfg.maxIter.toNat = n + 1 ∧ F < n := by
    have := h.iters
    exact ⟨cfg.maxIter.toNat - 1, by omega, by omega⟩
  obtain ⟨n, hn, hFn⟩ := hN
  unfold solve
  rw [if_neg (not_not.2 ha')]
  simp only [hc', if_false, initProgram, h.mode, or_true, if_true]
  obtain ⟨s, h1, h2, h3⟩ := fixed_first (q := (clearStatus p).quadratic) (o := o) h (by omega) (ho 0) (hk 0) ha
    (st := ⟨cfg.maxIter, none, some 1, some 1, []⟩) rfl rfl rfl
  rcases hj with ⟨rfl, hj⟩ | ⟨rfl, hj⟩
  · rw [if_pos hj] at h1
    rw [hn]
    simp only [loop, h1, Outcome.bind_ok, Outcome.pure_eq]
    exact fixed_post h.pos h2 (by simp [h3, hj]) ht _
  · rw [if_neg (hj 0 (Nat.zero_le _))] at h1
    obtain ⟨s', h4, h5, h6⟩ := fixed_loop (q := (clearStatus p).quadratic) h j hF ho hk hj j 0 n s
      (by omega) hFn h2
    rw [hn]
    simp only [loop, h1, Outcome.bind_ok, h4]
    exact fixed_post h.pos h5 h6 ht _

/-- The whole call, when the barrier parameter is above the threshold and the first direction is short: the
flags are set according to the objective values. -/
theorem fixed_flags (h : Fixed sqrt cfg K) (h0 : 0 ≤ kMin sqrt cfg) (hF : 0 ≤ cfg.finalSteps) {p : Prog R}
    (ha : p.quadratic = false ∨ cfg.lineSearch = true) (hc : p.constraints ≠ 0)
    (ho : o.factorOk 0 = true) (hk : o.kkt 0 ≤ cfg.kktTol)
    (ht : cfg.infeasThreshold < 1 / K * (1 / K)) (hj : |o.norm 0| ≤ cfg.finalTol) :
    ∃ r, solve sqrt p cfg o = .ok r ∧ r.ret = false ∧ r.out = .raw (some 0) ∧
      lastCompleted r.trace = some 0 ∧ lastParameter r.trace = some K ∧
      r.prog.status = ⟨false, some 1, decide (o.cx 0 * K ≤ -(1 / 2)), decide (1 / 2 ≤ o.bY 0 * K)⟩ := by
  have ha' : p.quadratic = false ∨ (cfg.lineSearch = true ∧ cfg.rescaling = false) :=
    ha.imp id fun hl => ⟨hl, h.rescaling⟩
  have hc' : ¬ (clearStatus p).constraints = 0 := hc
  have hN : ∃ n, cfg.maxIter.toNat = n + 1 := by
    have := h.iters
    exact ⟨cfg.maxIter.toNat - 1, by omega⟩
  obtain ⟨n, hn⟩ := hN
  unfold solve
  rw [if_neg (not_not.2 ha')]
  simp only [hc', if_false, initProgram, h.mode, or_true, if_true]
  obtain ⟨s, h1, h2, h3⟩ := fixed_first (q := (clearStatus p).quadratic) (o := o) h hF ho hk ha
    (st := ⟨cfg.maxIter, none, some 1, some 1, []⟩) rfl rfl rfl
  rw [if_pos hj] at h1
  have hl : loop sqrt cfg (clearStatus p).quadratic o cfg.maxIter.toNat 0
      (start cfg ⟨cfg.maxIter, none, some 1, some 1, []⟩) = .ok (.brk, s) := by
    rw [hn]
    simp only [loop, h1, Outcome.bind_ok, Outcome.pure_eq]
  obtain ⟨i, -, hI, -⟩ := exit_loop h0 hl
  have hy : lastCompleted s.trace = some 0 := by rw [← hI.y, h2.y]
  obtain ⟨-, -, -, hpar, -, hcx, hby⟩ := hI.onSome 0 hy
  have hov : overThreshold cfg K = true := by
    simp [overThreshold, h.pos.ne']
    simpa using ht
  rw [hl]
  simp only [Outcome.bind_ok]
  unfold post output
  simp only [h2.n, h2.y, h2.k, hov, hcx, hby, readVar, Outcome.bind_ok, Outcome.pure_eq, if_true,
    Bool.not_true, Bool.false_and, Bool.true_and]
  refine ⟨_, rfl, rfl, rfl, ?_, ?_, rfl⟩
  · cases cfg.prepareDual
    · exact hy
    · exact hy
  · rw [h2.k] at hpar
    cases cfg.prepareDual
    · exact hpar
    · exact hpar

end Verif.SolveLoop
