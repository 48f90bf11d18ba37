import Verif.Spec.Solve
import Mathlib.Tactic.SplitIfs
import Mathlib.Tactic.Linarith

/-!
# Lemmas on the optimisation loop
-/

namespace Verif.SolveLoop

open Spec

variable {R : Type}

theorem readVar_eq {α : Type} {x : Option α} {a : α} : readVar x = .ok a ↔ x = some a := by
  cases x <;> simp [readVar]

theorem bind_eq_ok {α β : Type} {x : Outcome α} {f : α → Outcome β} {b : β} :
    (x >>= f) = .ok b ↔ ∃ a, x = .ok a ∧ f a = .ok b := by
  cases x <;> simp

variable [Field R] [LinearOrder R]
variable {sqrt : R → R} {cfg : Config R} {q : Bool} {o : Oracle R}

/-- The loop, given an invariant at the loop head and what holds at each exit. -/
theorem loop_inv {N : Nat} {I : Nat → State R → Prop} {Q : Ctl → State R → Prop}
    (hbody : ∀ i s c s', i < N → I i s → body sqrt cfg q o i s = .ok (c, s') →
      (c = .next → I (i + 1) s') ∧ (c ≠ .next → Q c s'))
    (hend : ∀ s, I N s → Q .brk s) :
    ∀ n i s c s', i + n = N → I i s → loop sqrt cfg q o n i s = .ok (c, s') → Q c s' := by
  intro n
  induction n with
  | zero =>
    intro i s c s' hi hI h
    simp only [loop, Outcome.ok.injEq, Prod.mk.injEq] at h
    obtain ⟨rfl, rfl⟩ := h
    exact hend _ (by simpa [← hi] using hI)
  | succ n ih =>
    intro i s c s' hi hI h
    simp only [loop, bind_eq_ok] at h
    obtain ⟨⟨c1, s1⟩, h1, h2⟩ := h
    have hb := hbody i s c1 s1 (by omega) hI h1
    cases c1 with
    | next => exact ih _ _ _ _ (by omega) (hb.1 rfl) h2
    | _ =>
      simp only [Outcome.pure_eq, Outcome.ok.injEq, Prod.mk.injEq] at h2
      obtain ⟨rfl, rfl⟩ := h2
      exact hb.2 (by simp)

/-- The loop ends normally if the body does. -/
theorem loop_total {N : Nat} {I : Nat → State R → Prop}
    (hbody : ∀ i s, i < N → I i s → ∃ c s', body sqrt cfg q o i s = .ok (c, s') ∧
      (c = .next → I (i + 1) s')) :
    ∀ n i s, i + n = N → I i s → ∃ c s', loop sqrt cfg q o n i s = .ok (c, s') := by
  intro n
  induction n with
  | zero => intro i s _ _; exact ⟨_, _, rfl⟩
  | succ n ih =>
    intro i s hi hI
    obtain ⟨c, s', h, hn⟩ := hbody i s (by omega) hI
    simp only [loop, h, Outcome.bind_ok]
    cases c with
    | next => exact ih _ _ (by omega) (hn rfl)
    | _ => exact ⟨_, _, rfl⟩

/-- What rescaling changes. -/
theorem rescale_ok {i : Nat} {s s' : State R} (h : rescale sqrt cfg o i s = .ok s') :
    s' = { s with stats := s'.stats, kMax := s'.kMax } ∧
    s'.stats = { s.stats with bScale := s'.stats.bScale, cScale := s'.stats.cScale } ∧
    (i ≠ 0 ∨ cfg.rescaling = false → s' = s) ∧
    (i = 0 → cfg.rescaling = true → ∃ b c, s'.stats.bScale = some b ∧ s'.stats.cScale = some c ∧
      s'.kMax = 1 / sqrt (1 / (s.kMax * s.kMax) * (b * c)) ∧
      (cfg.mode = 0 → b = 1 / (1 + o.bNorm) ∧ c = 1 / (1 + o.aqcNorm)) ∧
      (cfg.mode ≠ 0 → s.stats.bScale = some b ∧ s.stats.cScale = some c)) := by
  unfold rescale at h
  split_ifs at h with h1 h2
  · simp only [readVar, Outcome.bind_ok, Outcome.pure_eq, Outcome.ok.injEq] at h
    subst h
    exact ⟨rfl, rfl, fun h => by rcases h with h | h <;> simp_all,
      fun _ _ => ⟨_, _, rfl, rfl, rfl, fun _ => ⟨rfl, rfl⟩, fun h => absurd h2 h⟩⟩
  · simp only [bind_eq_ok, readVar_eq, Outcome.pure_eq, Outcome.ok.injEq] at h
    obtain ⟨b, hb, c, hc, rfl⟩ := h
    exact ⟨rfl, rfl, fun h => by rcases h with h | h <;> simp_all,
      fun _ _ => ⟨_, _, hb, hc, rfl, fun h => absurd h h2, fun _ => ⟨hb, hc⟩⟩⟩
  · simp only [Outcome.ok.injEq] at h
    subst h
    refine ⟨rfl, rfl, fun _ => rfl, fun h0 h3 => absurd ⟨by omega, h3⟩ h1⟩

/-- What choosing the parameter changes. -/
theorem chooseMu_some {i : Nat} {upd : Bool} {s s' : State R}
    (h : chooseMu cfg q o i upd s = some s') :
    s' = { s with k := s'.k, centering := s'.centering } ∧
    (upd = false → s'.k = s.k) ∧
    s'.centering = s.centering + (if upd = false ∧ initialCentering cfg i = false then 1 else 0) := by
  unfold chooseMu at h
  split_ifs at h with h1 h2
  · simp only [Option.map_eq_some_iff] at h
    obtain ⟨t, _, rfl⟩ := h
    subst h1
    by_cases ht : 0 < t <;> simp [ht]
  · cases h
    simp [h1, h2]
  · cases h
    simp [h2]

/-- The parameter chosen when it is updated, and the error exit. -/
theorem chooseMu_none {i : Nat} {upd : Bool} {s : State R}
    (h : chooseMu cfg q o i upd s = none) :
    upd = true ∧ q = true ∧ (cfg.lineSearch = true → s.k < 0) := by
  unfold chooseMu at h
  split_ifs at h with h1
  simp only [Option.map_eq_none_iff, candidate] at h
  split_ifs at h with h2 h3 h4 h5 h6
  all_goals simp_all

/-- State left by a completed iteration. -/
def completed (cfg : Config R) (sqrt : R → R) (q : Bool) (o : Oracle R) (i : Nat) (upd : Bool)
    (s : State R) : State R :=
  { s with
      k := applyLimits s.k (kMin sqrt cfg) s.kMax
      y := some i
      aborted := decide (i = 0) && decide (cfg.mode = 1) && decide (cfg.warmAbort ≤ o.norm i)
      cx := o.cx i
      bY := o.bY i
      kkt := if q then s.kkt else o.kkt i
      stats := { s.stats with
        numIter := some (i + 1)
        sqrtInvMu := (i, applyLimits s.k (kMin sqrt cfg) s.kMax) :: s.stats.sqrtInvMu }
      trace := (if decide (i = 0) && decide (cfg.mode = 1) && decide (cfg.warmAbort ≤ o.norm i)
          then Ev.reset i else Ev.step i (stepSize (o.norm i))) ::
        .direction i upd (initialCentering cfg i) (applyLimits s.k (kMin sqrt cfg) s.kMax) ::
        s.trace }

theorem finish_ok {i : Nat} {fc upd : Bool} {s s' : State R} {c : Ctl}
    (h : finish sqrt cfg q o i fc upd s = .ok (c, s')) :
    (i : Int) < s.stats.cap ∧ s.stats.bScale.isSome ∧ s.stats.cScale.isSome ∧
    ((c = .next ∧ s' = completed cfg sqrt q o i upd s) ∨
     (c = .brk ∧ s' = { completed cfg sqrt q o i upd s with maxReached := false } ∧
      |o.norm i| ≤ cfg.finalTol ∧
      (fc = true ∨ s.kMax ≤ applyLimits s.k (kMin sqrt cfg) s.kMax))) := by
  unfold finish at h
  simp only [bind_eq_ok, readVar_eq] at h
  obtain ⟨b, hb, d, hd, h⟩ := h
  by_cases h1 : s.stats.cap ≤ (i : Int)
  · rw [if_pos h1] at h
    cases h
  · rw [if_neg h1] at h
    refine ⟨by omega, by simp [hb], by simp [hd], ?_⟩
    by_cases h2 : (fc || decide (s.kMax ≤ applyLimits s.k (kMin sqrt cfg) s.kMax)) = true ∧
        |o.norm i| ≤ cfg.finalTol
    · rw [if_pos h2] at h
      simp only [Outcome.ok.injEq, Prod.mk.injEq] at h
      obtain ⟨rfl, rfl⟩ := h
      exact .inr ⟨rfl, rfl, h2.2, by simpa using h2.1⟩
    · rw [if_neg h2] at h
      simp only [Outcome.ok.injEq, Prod.mk.injEq] at h
      obtain ⟨rfl, rfl⟩ := h
      exact .inl ⟨rfl, rfl⟩

/-- The possible ends of the loop body. -/
theorem body_ok {i : Nat} {s s' : State R} {c : Ctl} (h : body sqrt cfg q o i s = .ok (c, s')) :
    (c = .brk ∧ finalCentering cfg i s = true ∧ cfg.finalSteps ≤ s.centering ∧
      s' = { s with aborted := false, maxReached := decide (cfg.maxIter - 1 ≤ (i : Int)) }) ∨
    (¬ (finalCentering cfg i s = true ∧ cfg.finalSteps ≤ s.centering) ∧
      ∃ s1, rescale sqrt cfg o i { s with aborted := false } = .ok s1 ∧
      ((o.factorOk i = false ∧ i = 0 ∧ cfg.mode = 1 ∧ c = .next ∧
          s' = { s1 with aborted := true, trace := .reset i :: .factor i false :: s1.trace }) ∨
       (o.factorOk i = false ∧ ¬ (i = 0 ∧ cfg.mode = 1) ∧ c = .fail ∧
          s' = { s1 with trace := .factor i false :: s1.trace }) ∨
       (o.factorOk i = true ∧ c = .demand ∧
          chooseMu cfg q o i (updateMu cfg i s)
            { s1 with trace := .factor i true :: s1.trace } = none ∧
          s' = { s1 with trace := .factor i true :: s1.trace }) ∨
       (o.factorOk i = true ∧ ∃ s2, chooseMu cfg q o i (updateMu cfg i s)
            { s1 with trace := .factor i true :: s1.trace } = some s2 ∧
          finish sqrt cfg q o i (finalCentering cfg i s) (updateMu cfg i s) s2 = .ok (c, s')))) := by
  unfold body at h
  simp only at h
  split_ifs at h with h1
  · simp only [Outcome.ok.injEq, Prod.mk.injEq] at h
    obtain ⟨rfl, rfl⟩ := h
    exact .inl ⟨rfl, h1.1, h1.2, rfl⟩
  · refine .inr ⟨h1, ?_⟩
    unfold bodyMain at h
    rw [bind_eq_ok] at h
    obtain ⟨s1, h2, h⟩ := h
    refine ⟨s1, h2, ?_⟩
    simp only at h
    cases hf : o.factorOk i with
    | false =>
      simp only [hf, if_true] at h
      split_ifs at h with h3
      · simp only [Outcome.pure_eq, Outcome.ok.injEq, Prod.mk.injEq] at h
        obtain ⟨rfl, rfl⟩ := h
        exact .inl ⟨rfl, h3.1, h3.2, rfl, rfl⟩
      · simp only [Outcome.pure_eq, Outcome.ok.injEq, Prod.mk.injEq] at h
        obtain ⟨rfl, rfl⟩ := h
        exact .inr (.inl ⟨rfl, h3, rfl, rfl⟩)
    | true =>
      simp only [hf, Bool.true_eq_false, if_false] at h
      cases hc : chooseMu cfg q o i (updateMu cfg i s)
          { s1 with trace := .factor i true :: s1.trace } with
      | none =>
        simp only [hc, Outcome.pure_eq, Outcome.ok.injEq, Prod.mk.injEq] at h
        obtain ⟨rfl, rfl⟩ := h
        exact .inr (.inr (.inl ⟨rfl, rfl, rfl, rfl⟩))
      | some s2 =>
        simp only [hc] at h
        exact .inr (.inr (.inr ⟨rfl, s2, rfl, h⟩))

theorem applyLimits_ge (x lb ub : R) : lb ≤ applyLimits x lb ub := by
  unfold applyLimits
  grind

theorem applyLimits_le (x lb ub : R) : applyLimits x lb ub ≤ max lb ub := by
  unfold applyLimits
  grind

theorem le_applyLimits {x lb ub : R} (h : ub ≤ x) : ub ≤ applyLimits x lb ub := by
  unfold applyLimits
  simp only
  split_ifs with h1 h2 h2
  · exact h2.le
  · exact le_rfl
  · exact h.trans h2.le
  · exact h

/-- What holds at the head of iteration `i`; `st` is the statistics block at the start. -/
structure Inv (sqrt : R → R) (cfg : Config R) (o : Oracle R) (st : Stats R) (i : Nat)
    (s : State R) : Prop where
  facts : factorizations s.trace ≤ i
  stps : steps s.trace ≤ i
  cen : (centeringSteps s.trace : Int) = s.centering
  cenLe : s.centering ≤ max 0 cfg.finalSteps
  y : s.y = lastCompleted s.trace
  onSome : ∀ j, lastCompleted s.trace = some j → s.stats.numIter = some (j + 1) ∧ j + 1 = i ∧
    lastFactor s.trace = some (j, true) ∧ lastParameter s.trace = some s.k ∧ kMin sqrt cfg ≤ s.k ∧
    s.cx = o.cx j ∧ s.bY = o.bY j
  onNone : lastCompleted s.trace = none → s.stats.numIter = st.numIter ∧ s.k = 0 ∧ s.cx = 1 ∧
    s.bY = -1 ∧ i ≤ 1 ∧ (i = 1 → cfg.mode = 1 ∧ o.factorOk 0 = false)
  cap : s.stats.cap = st.cap
  sizes : ∀ j z, Ev.step j z ∈ s.trace → z = stepSize (o.norm j)
  pars : ∀ j u v k, Ev.direction j u v k ∈ s.trace → kMin sqrt cfg ≤ k

/-- What holds when the loop is left. -/
def Exit (sqrt : R → R) (cfg : Config R) (o : Oracle R) (st : Stats R) (N : Nat) (c : Ctl)
    (s : State R) : Prop :=
  match c with
  | .next => False
  | .brk => ∃ i, i ≤ N ∧ Inv sqrt cfg o st i s ∧ (s.maxReached = false →
      (∃ j, lastCompleted s.trace = some j ∧ |o.norm j| ≤ cfg.finalTol) ∨
      (cfg.finalSteps ≤ s.centering ∧ (i : Int) + 1 < cfg.maxIter))
  | .fail => ∃ i s0, i < N ∧ Inv sqrt cfg o st i s0 ∧ o.factorOk i = false ∧
      s.trace = .factor i false :: s0.trace
  | .demand => ∃ i s0, i < N ∧ Inv sqrt cfg o st i s0 ∧
      s.trace = .factor i true :: s0.trace ∧ cfg.lineSearch = false

theorem inv_start (st : Stats R) : Inv sqrt cfg o st 0 (start cfg st) where
  facts := by simp [start, factorizations]
  stps := by simp [start, steps]
  cen := by simp [start, centeringSteps]
  cenLe := by simp [start]
  y := by simp [start, lastCompleted]
  onSome := by simp [start, lastCompleted]
  onNone := by simp [start]
  cap := rfl
  sizes := by simp [start]
  pars := by simp [start]

/-- Nothing but the scalings and the target depend on rescaling. -/
theorem Inv.rescale {st : Stats R} {i : Nat} {s s1 : State R} {b : Bool}
    (h : Inv sqrt cfg o st i s)
    (hr : rescale sqrt cfg o i { s with aborted := b } = .ok s1) : Inv sqrt cfg o st i s1 := by
  obtain ⟨h1, h2, -, -⟩ := rescale_ok hr
  rw [h1, h2]
  exact ⟨h.facts, h.stps, h.cen, h.cenLe, h.y, h.onSome, h.onNone, h.cap, h.sizes, h.pars⟩

theorem Inv.nonneg {st : Stats R} {i : Nat} {s : State R} (h : Inv sqrt cfg o st i s)
    (hk : 0 ≤ kMin sqrt cfg) : 0 ≤ s.k := by
  cases hl : lastCompleted s.trace with
  | none => exact (h.onNone hl).2.1.ge
  | some j => exact hk.trans (h.onSome j hl).2.2.2.2.1

theorem Inv.completed {st : Stats R} {i : Nat} {s s1 s2 : State R} (hi : Inv sqrt cfg o st i s)
    (h1 : Inv sqrt cfg o st i s1) (hc : s1.centering = s.centering)
    (hok : o.factorOk i = true)
    (hf : ¬ (finalCentering cfg i s = true ∧ cfg.finalSteps ≤ s.centering))
    (h2 : chooseMu cfg q o i (updateMu cfg i s)
      { s1 with trace := .factor i true :: s1.trace } = some s2) :
    Inv sqrt cfg o st (i + 1) (completed cfg sqrt q o i (updateMu cfg i s) s2) := by
  obtain ⟨e1, -, e2⟩ := chooseMu_some h2
  generalize hb : (decide (i = 0) && decide (cfg.mode = 1) && decide (cfg.warmAbort ≤ o.norm i)) = b
  have e3 : s2.trace = .factor i true :: s1.trace := by rw [e1]
  have e4 : s2.stats = s1.stats := by rw [e1]
  simp only at e2
  constructor
  · have := h1.facts
    cases b <;> simp [SolveLoop.completed, hb, e3, factorizations, this]
  · have := h1.stps
    cases b <;> simp [SolveLoop.completed, hb, e3, steps] <;> omega
  · have := h1.cen
    simp only [SolveLoop.completed, e2, hb, e3]
    cases b <;> cases updateMu cfg i s <;> cases initialCentering cfg i <;>
      simp [centeringSteps, ← this]
  · have hle := h1.cenLe
    simp only [SolveLoop.completed, e2]
    split_ifs with hu
    · have : finalCentering cfg i s = true := by
        have h3 := hu.1
        simp only [updateMu, hu.2, Bool.false_or, Bool.or_eq_false_iff, Bool.not_eq_false'] at h3
        exact h3.1.2
      have : ¬ cfg.finalSteps ≤ s.centering := fun h => hf ⟨this, h⟩
      rw [hc]
      have h0 : 0 ≤ cfg.finalSteps ∨ cfg.finalSteps < 0 := by omega
      have hcen := hi.cen
      omega
    · simpa using hle
  · cases b <;> simp [SolveLoop.completed, hb, lastCompleted]
  · intro j hj
    have hj' : j = i := by
      cases b <;> simp [SolveLoop.completed, hb, lastCompleted] at hj <;> omega
    subst hj'
    refine ⟨rfl, rfl, ?_, ?_, applyLimits_ge _ _ _, rfl, rfl⟩
    · cases b <;> simp [SolveLoop.completed, hb, lastFactor, e3]
    · cases b <;> simp [SolveLoop.completed, hb, lastParameter]
  · intro hn
    cases b <;> simp [SolveLoop.completed, hb, lastCompleted] at hn
  · simp only [SolveLoop.completed, e4]
    exact h1.cap
  · intro j z hz
    have := h1.sizes j z
    cases b <;> simp [SolveLoop.completed, hb, e3] at hz <;> grind
  · intro j u v k hz
    have := h1.pars j u v k
    have hg := applyLimits_ge s2.k (kMin sqrt cfg) s2.kMax
    cases b <;> simp [SolveLoop.completed, hb, e3] at hz <;> grind

theorem exit_body {st : Stats R} (hk : 0 ≤ kMin sqrt cfg) (i : Nat) (s : State R) (c : Ctl)
    (s' : State R) (hi : i < cfg.maxIter.toNat) (h : Inv sqrt cfg o st i s)
    (hs : s.maxReached = true)
    (hb : body sqrt cfg q o i s = .ok (c, s')) :
    (c = .next → Inv sqrt cfg o st (i + 1) s' ∧ s'.maxReached = true) ∧
    (c ≠ .next → Exit sqrt cfg o st cfg.maxIter.toNat c s') := by
  rcases body_ok hb with ⟨rfl, -, h2, rfl⟩ | ⟨hf, s1, hr, h3⟩
  · refine ⟨by simp, fun _ => ⟨i, by omega, ?_, fun hm => .inr ⟨h2, ?_⟩⟩⟩
    · exact ⟨h.facts, h.stps, h.cen, h.cenLe, h.y, h.onSome, h.onNone, h.cap, h.sizes, h.pars⟩
    · simp only [decide_eq_false_iff_not] at hm
      omega
  have h1 := h.rescale hr
  obtain ⟨e1, e2, -, -⟩ := rescale_ok hr
  have ec : s1.centering = s.centering := by rw [e1]
  have em : s1.maxReached = s.maxReached := by rw [e1]
  rcases h3 with ⟨hf0, hi0, hm, rfl, rfl⟩ | ⟨hf0, -, rfl, rfl⟩ | ⟨-, rfl, hc, rfl⟩ | ⟨hok, s2, hc, hfin⟩
  · refine ⟨fun _ => ⟨?_, by simpa [em] using hs⟩, by simp⟩
    subst hi0
    have hl : lastCompleted s1.trace = none := by
      cases hl : lastCompleted s1.trace with
      | none => rfl
      | some j => exact absurd (h1.onSome j hl).2.1 (by omega)
    constructor
    · simpa [factorizations] using h1.facts
    · have := h1.stps
      simp [steps]; omega
    · simpa [centeringSteps] using h1.cen
    · exact h1.cenLe
    · simpa [lastCompleted] using h1.y
    · simp [lastCompleted, hl]
    · intro _
      have := h1.onNone hl
      exact ⟨this.1, this.2.1, this.2.2.1, this.2.2.2.1, by omega, fun _ => ⟨hm, hf0⟩⟩
    · exact h1.cap
    · intro j z hz; exact h1.sizes j z (by simpa using hz)
    · intro j u v k hz; exact h1.pars j u v k (by simpa using hz)
  · exact ⟨by simp, fun _ => ⟨i, s1, hi, h1, hf0, rfl⟩⟩
  · refine ⟨by simp, fun _ => ⟨i, s1, hi, h1, rfl, ?_⟩⟩
    have := chooseMu_none hc
    cases hl : cfg.lineSearch with
    | false => rfl
    | true => exact absurd (this.2.2 hl) (not_lt.2 (h1.nonneg hk))
  · have hC := h.completed h1 ec hok hf hc
    obtain ⟨-, -, -, h4⟩ := finish_ok hfin
    have e3 := (chooseMu_some hc).1
    rcases h4 with ⟨rfl, rfl⟩ | ⟨rfl, rfl, hn, -⟩
    · refine ⟨fun _ => ⟨hC, ?_⟩, by simp⟩
      simp only [SolveLoop.completed]
      rw [e3]
      simpa [em] using hs
    · refine ⟨by simp, fun _ => ⟨i + 1, by omega, ?_, fun _ => .inl ⟨i, ?_, hn⟩⟩⟩
      · exact ⟨hC.facts, hC.stps, hC.cen, hC.cenLe, hC.y, hC.onSome, hC.onNone, hC.cap, hC.sizes,
          hC.pars⟩
      · simp only [SolveLoop.completed]
        split_ifs <;> rfl

theorem exit_loop {st : Stats R} (hk : 0 ≤ kMin sqrt cfg) {c : Ctl} {s : State R}
    (h : loop sqrt cfg q o cfg.maxIter.toNat 0 (start cfg st) = .ok (c, s)) :
    Exit sqrt cfg o st cfg.maxIter.toNat c s := by
  refine loop_inv (I := fun i s => Inv sqrt cfg o st i s ∧ s.maxReached = true)
    (fun i s c s' hi hI hb => exit_body hk i s c s' hi hI.1 hI.2 hb)
    (fun s hI => ⟨_, le_rfl, hI.1, fun hm => ?_⟩) _ 0 _ c s (by omega) ⟨inv_start st, rfl⟩ h
  rw [hI.2] at hm
  cases hm

end Verif.SolveLoop

namespace Verif.SolveLoop

open Spec

variable {R : Type} [Field R] [LinearOrder R]
variable {sqrt : R → R} {cfg : Config R} {q : Bool} {o : Oracle R}

/-- The target is the configured one, rescaled. -/
def Target (sqrt : R → R) (cfg : Config R) (s : State R) : Prop :=
  if cfg.rescaling = true then
    ∃ b c, s.stats.bScale = some b ∧ s.stats.cScale = some c ∧
      s.kMax = 1 / sqrt (1 / (cfg.invSqrtMuMax * cfg.invSqrtMuMax) * (b * c))
  else s.kMax = cfg.invSqrtMuMax

/-- What holds at the head of iteration `i` when there is no warm start and the residual never
exceeds its tolerance. -/
structure Inv2 (sqrt : R → R) (cfg : Config R) (i : Nat) (s : State R) : Prop where
  aborted : s.aborted = false
  kkt : s.kkt ≤ cfg.kktTol
  zero : i = 0 → s.kMax = cfg.invSqrtMuMax ∧ s.k = 0
  pos : i ≠ 0 → Target sqrt cfg s

/-- What holds then when the loop is left. -/
def Exit2 (cfg : Config R) (s : State R) : Prop :=
  s.maxReached = false →
    s.kMax ≤ s.k ∨ ∀ j : Nat, lastCompleted s.trace = some j → cfg.maxIter - cfg.finalSteps ≤ j + 1

theorem target_rescale {i : Nat} {s s1 : State R} {b : Bool} (h : Inv2 sqrt cfg i s)
    (hr : rescale sqrt cfg o i { s with aborted := b } = .ok s1) : Target sqrt cfg s1 := by
  obtain ⟨-, -, h3, h4⟩ := rescale_ok hr
  by_cases hi : i = 0
  · cases hc : cfg.rescaling with
    | false =>
      rw [h3 (.inr hc)]
      simp only [Target, hc]
      simpa using (h.zero hi).1
    | true =>
      obtain ⟨b, c, hb, hc', hk, -, -⟩ := h4 hi hc
      simp only [Target, hc, if_true]
      exact ⟨b, c, hb, hc', by rw [hk, ← (h.zero hi).1]⟩
  · rw [h3 (.inl hi)]
    exact h.pos hi

theorem exit2_body {st : Stats R} (hm : cfg.mode ≠ 1) (hM : 0 < cfg.invSqrtMuMax)
    (hkkt : ∀ i, o.kkt i ≤ cfg.kktTol) (i : Nat) (s : State R) (c : Ctl)
    (s' : State R) (h : Inv sqrt cfg o st i s) (h2 : Inv2 sqrt cfg i s)
    (hb : body sqrt cfg q o i s = .ok (c, s')) :
    (c = .next → Inv2 sqrt cfg (i + 1) s') ∧ (c = .brk → Exit2 cfg s' ∧ (i ≠ 0 → Target sqrt cfg s') ∧
      (i = 0 → s'.stats = s.stats ∨ Target sqrt cfg s')) := by
  rcases body_ok hb with ⟨rfl, hfc, -, rfl⟩ | ⟨hf, s1, hr, h3⟩
  · refine ⟨by simp, fun _ => ⟨fun _ => ?_, fun hi => h2.pos hi, fun _ => .inl rfl⟩⟩
    simp only [finalCentering, Bool.or_eq_true, decide_eq_true_eq] at hfc
    rcases hfc with (hfc | hfc) | hfc
    · exact .inl hfc
    · exact absurd h2.kkt (not_le.2 hfc)
    · refine .inr fun j hj => ?_
      have := (h.onSome j hj).2.1
      omega
  obtain ⟨e1, e2, -, -⟩ := rescale_ok hr
  have hT := target_rescale h2 hr
  rcases h3 with ⟨hf0, hi0, hm', rfl, rfl⟩ | ⟨hf0, -, rfl, rfl⟩ | ⟨-, rfl, hc, rfl⟩ | ⟨hok, s2, hc, hfin⟩
  · exact absurd hm' hm
  · exact ⟨by simp, by simp⟩
  · exact ⟨by simp, by simp⟩
  · obtain ⟨-, -, -, h4⟩ := finish_ok hfin
    obtain ⟨e3, e4, -⟩ := chooseMu_some hc
    have e5 : s2.stats = s1.stats := by rw [e3]
    have e6 : s2.kMax = s1.kMax := by rw [e3]
    have e7 : s2.kkt = s.kkt := by rw [e3, e1]
    have hT' : ∀ b, Target sqrt cfg { completed cfg sqrt q o i (updateMu cfg i s) s2 with
        maxReached := b } := by
      intro b
      unfold Target at hT ⊢
      simp only [completed, e5, e6]
      exact hT
    rcases h4 with ⟨rfl, rfl⟩ | ⟨rfl, rfl, -, hn⟩
    · refine ⟨fun _ => ⟨?_, ?_, by simp, fun _ => hT' _⟩, by simp⟩
      · simp [completed, hm]
      · simp only [completed, e7]
        split_ifs
        · exact h2.kkt
        · exact hkkt i
    · refine ⟨by simp, fun _ => ⟨fun _ => ?_, fun _ => hT' _, fun _ => .inr (hT' _)⟩⟩
      have hl : ∀ j, lastCompleted (completed cfg sqrt q o i (updateMu cfg i s) s2).trace = some j →
          j = i := by
        intro j
        simp only [completed]
        split_ifs <;> simp only [lastCompleted, Option.some.injEq] <;> exact fun h => h.symm
      rcases hn with hn | hn
      · simp only [finalCentering, Bool.or_eq_true, decide_eq_true_eq] at hn
        rcases hn with (hn | hn) | hn
        · have hi : i ≠ 0 := by
            intro hi
            have := h2.zero hi
            rw [this.1, this.2] at hn
            exact absurd hn (not_le.2 hM)
          left
          have hs1 : s1 = { s with aborted := false } := (rescale_ok hr).2.2.1 (.inl hi)
          have hu : updateMu cfg i s = false := by
            simp [updateMu, hi, h2.aborted, finalCentering, hn]
          simp only [completed]
          apply le_applyLimits
          rw [e4 hu, e6, hs1]
          exact hn
        · exact absurd h2.kkt (not_le.2 hn)
        · right
          intro j hj
          have := hl j hj
          omega
      · left
        exact hn

theorem exit2_loop {st : Stats R} (hk : 0 ≤ kMin sqrt cfg) (hm : cfg.mode ≠ 1)
    (hM : 0 < cfg.invSqrtMuMax) (h0 : 0 ≤ cfg.kktTol) (hkkt : ∀ i, o.kkt i ≤ cfg.kktTol)
    {s : State R}
    (h : loop sqrt cfg q o cfg.maxIter.toNat 0 (start cfg st) = .ok (.brk, s)) :
    Exit2 cfg s ∧ (lastCompleted s.trace ≠ none → Target sqrt cfg s) := by
  have := loop_inv (sqrt := sqrt) (cfg := cfg) (q := q) (o := o) (N := cfg.maxIter.toNat)
    (I := fun i s => (Inv sqrt cfg o st i s ∧ s.maxReached = true) ∧ Inv2 sqrt cfg i s)
    (Q := fun c s => c = .brk → Exit2 cfg s ∧ (lastCompleted s.trace ≠ none → Target sqrt cfg s))
    (fun i s c s' hi hI hb => ?_) (fun s hI _ => ⟨?_, ?_⟩) _ 0 _ .brk s (by omega)
    ⟨⟨inv_start st, rfl⟩, ⟨rfl, h0, fun _ => ⟨rfl, rfl⟩, by simp⟩⟩ h rfl
  · exact this
  · have hA := exit_body hk i s c s' hi hI.1.1 hI.1.2 hb
    have hB := exit2_body hm hM hkkt i s c s' hI.1.1 hI.2 hb
    refine ⟨fun hc => ⟨hA.1 hc, hB.1 hc⟩, fun _ hc => ⟨(hB.2 hc).1, fun hl => ?_⟩⟩
    by_cases hi0 : i = 0
    · subst hc
      rcases (body_ok hb) with ⟨-, hfc, -, rfl⟩ | ⟨hf, s1, hr, h3⟩
      · exfalso
        apply hl
        cases hl : lastCompleted s.trace with
        | none => rfl
        | some j => exact absurd (hI.1.1.onSome j hl).2.1 (by omega)
      · rcases h3 with ⟨-, -, -, h', -⟩ | ⟨-, -, h', -⟩ | ⟨-, h', -, -⟩ | ⟨hok, s2, hc, hfin⟩
        · cases h'
        · cases h'
        · cases h'
        · have hT := target_rescale hI.2 hr
          obtain ⟨-, -, -, h4⟩ := finish_ok hfin
          obtain ⟨e3, -, -⟩ := chooseMu_some hc
          have e5 : s2.stats = s1.stats := by rw [e3]
          have e6 : s2.kMax = s1.kMax := by rw [e3]
          rcases h4 with ⟨h', -⟩ | ⟨-, rfl, -, -⟩
          · cases h'
          · unfold Target at hT ⊢
            simp only [completed, e5, e6]
            exact hT
    · exact (hB.2 hc).2.1 hi0
  · intro hm
    rw [hI.1.2] at hm
    cases hm
  · intro hl
    apply hI.2.pos
    intro h0
    apply hl
    cases hl : lastCompleted s.trace with
    | none => rfl
    | some j => exact absurd (hI.1.1.onSome j hl).2.1 (by omega)

end Verif.SolveLoop

namespace Verif.SolveLoop

open Spec

variable {R : Type} [Field R] [LinearOrder R]
variable {sqrt : R → R} {cfg : Config R} {q : Bool} {o : Oracle R}

theorem bodyMain_ok {i : Nat} {fc upd : Bool} {s : State R} (hb : s.stats.bScale.isSome)
    (hc : s.stats.cScale.isSome) (hi : (i : Int) < s.stats.cap) :
    ∃ c s', bodyMain sqrt cfg q o i fc upd s = .ok (c, s') ∧ s'.stats.bScale.isSome ∧
      s'.stats.cScale.isSome ∧ s'.stats.cap = s.stats.cap := by
  obtain ⟨s1, hr⟩ : ∃ s1, rescale sqrt cfg o i s = .ok s1 := by
    obtain ⟨b, hb⟩ := Option.isSome_iff_exists.1 hb
    obtain ⟨c, hc⟩ := Option.isSome_iff_exists.1 hc
    unfold rescale
    split_ifs with h1 h2
    · exact ⟨_, rfl⟩
    · simp [hb, hc, readVar]
    · exact ⟨_, rfl⟩
  have h1 : s1.stats.bScale.isSome ∧ s1.stats.cScale.isSome ∧ s1.stats.cap = s.stats.cap := by
    obtain ⟨e1, e2, h3, h4⟩ := rescale_ok hr
    refine ⟨?_, ?_, by rw [e2]⟩
    all_goals
      by_cases h : i ≠ 0 ∨ cfg.rescaling = false
      · rw [h3 h]; assumption
      · simp only [ne_eq, not_or, not_not, Bool.not_eq_false] at h
        obtain ⟨b, c, hb, hc, -⟩ := h4 h.1 h.2
        simp [hb, hc]
  unfold bodyMain
  simp only [hr, Outcome.bind_ok]
  cases hf : o.factorOk i with
  | false =>
    simp only [if_true]
    split_ifs
    · exact ⟨_, _, rfl, h1⟩
    · exact ⟨_, _, rfl, h1⟩
  | true =>
    simp only [Bool.true_eq_false, if_false]
    cases hm : chooseMu cfg q o i upd { s1 with trace := .factor i true :: s1.trace } with
    | none => exact ⟨_, _, rfl, h1⟩
    | some s2 =>
      obtain ⟨e3, -, -⟩ := chooseMu_some hm
      have e5 : s2.stats = s1.stats := by rw [e3]
      obtain ⟨b, hb⟩ := Option.isSome_iff_exists.1 h1.1
      obtain ⟨c, hc⟩ := Option.isSome_iff_exists.1 h1.2.1
      have hcap : ¬ s2.stats.cap ≤ (i : Int) := by rw [e5, h1.2.2]; omega
      simp only
      unfold finish
      simp only [e5, hb, hc, readVar, Outcome.bind_ok]
      rw [← e5, if_neg hcap]
      split_ifs
      all_goals exact ⟨_, _, rfl, by simp [e5, hb], by simp [e5, hc], by simp [e5, h1.2.2]⟩

theorem body_total {i : Nat} {s : State R} (hb : s.stats.bScale.isSome)
    (hc : s.stats.cScale.isSome) (hi : (i : Int) < s.stats.cap) :
    ∃ c s', body sqrt cfg q o i s = .ok (c, s') ∧ s'.stats.bScale.isSome ∧
      s'.stats.cScale.isSome ∧ s'.stats.cap = s.stats.cap := by
  unfold body
  simp only
  split_ifs
  · exact ⟨_, _, rfl, hb, hc, rfl⟩
  · exact bodyMain_ok hb hc hi

/-- With a statistics block of the right size and set scalings, the loop ends normally. -/
theorem loop_ok {st : Stats R} (hb : st.bScale.isSome) (hc : st.cScale.isSome)
    (hcap : cfg.maxIter ≤ st.cap) :
    ∃ c s, loop sqrt cfg q o cfg.maxIter.toNat 0 (start cfg st) = .ok (c, s) := by
  refine loop_total (N := cfg.maxIter.toNat) (I := fun i s => s.stats.bScale.isSome ∧ s.stats.cScale.isSome ∧
    s.stats.cap = st.cap) (fun i s hi hI => ?_) _ 0 _ (by omega) ⟨hb, hc, rfl⟩
  obtain ⟨c, s', h, h1, h2, h3⟩ := body_total (sqrt := sqrt) (cfg := cfg) (q := q) (o := o)
    (i := i) hI.1 hI.2.1 (by rw [hI.2.2]; omega)
  exact ⟨c, s', h, fun _ => ⟨h1, h2, h3.trans hI.2.2⟩⟩

/-- The scalings stay set. -/
theorem loop_scales {st : Stats R} (hb : st.bScale.isSome) (hc : st.cScale.isSome)
    (hcap : cfg.maxIter ≤ st.cap) {c : Ctl} {s : State R}
    (h : loop sqrt cfg q o cfg.maxIter.toNat 0 (start cfg st) = .ok (c, s)) :
    s.stats.cScale.isSome := by
  refine (loop_inv (N := cfg.maxIter.toNat) (I := fun i s => s.stats.bScale.isSome ∧ s.stats.cScale.isSome ∧
    s.stats.cap = st.cap) (Q := fun _ s => s.stats.cScale.isSome)
    (fun i s c s' hi hI hs => ?_) (fun s hI => hI.2.1) _ 0 _ c s (by omega) ⟨hb, hc, rfl⟩ h)
  obtain ⟨c1, s1, h, h1, h2, h3⟩ := body_total (sqrt := sqrt) (cfg := cfg) (q := q) (o := o)
    (i := i) hI.1 hI.2.1 (by rw [hI.2.2]; omega)
  rw [h] at hs
  simp only [Outcome.ok.injEq, Prod.mk.injEq] at hs
  obtain ⟨rfl, rfl⟩ := hs
  exact ⟨fun _ => ⟨h1, h2, h3.trans hI.2.2⟩, fun _ => h2⟩

/-- Without warm start and with a first iteration that is not skipped, some iteration is completed
if the loop is left normally. -/
theorem loop_completes {st : Stats R} (hk : 0 ≤ kMin sqrt cfg) (hm : cfg.mode ≠ 1)
    (hN : 1 ≤ cfg.maxIter)
    (hf : 1 ≤ cfg.finalSteps ∨ (0 < cfg.invSqrtMuMax ∧ 0 ≤ cfg.kktTol))
    {s : State R} (h : loop sqrt cfg q o cfg.maxIter.toNat 0 (start cfg st) = .ok (.brk, s)) :
    lastCompleted s.trace ≠ none := by
  refine loop_inv (N := cfg.maxIter.toNat)
    (I := fun i s => (Inv sqrt cfg o st i s ∧ s.maxReached = true) ∧ (i = 0 → s = start cfg st))
    (Q := fun c s => c = .brk → lastCompleted s.trace ≠ none)
    (fun i s c s' hi hI hb => ?_) (fun s hI _ hn => ?_) _ 0 _ .brk s (by omega)
    ⟨⟨inv_start st, rfl⟩, fun _ => rfl⟩ h rfl
  · have hA := exit_body hk i s c s' hi hI.1.1 hI.1.2 hb
    refine ⟨fun hc => ⟨hA.1 hc, by omega⟩, fun _ hc hn => ?_⟩
    subst hc
    rcases (body_ok hb) with ⟨-, hfc, hcs, rfl⟩ | ⟨hf, s1, hr, h3⟩
    · have hn' := hI.1.1.onNone hn
      have hi0 : i = 0 := by
        by_contra hi0
        exact hm (hn'.2.2.2.2.2 (by omega)).1
      subst hi0
      have hst := hI.2 rfl
      subst hst
      simp only [finalCentering, start, Bool.or_eq_true, decide_eq_true_eq] at hfc
      simp only [start] at hcs
      rcases hf with hf | hf
      · omega
      · rcases hfc with (hfc | hfc) | hfc
        · exact absurd hf.1 (not_lt.2 (of_decide_eq_true hfc))
        · exact absurd hf.2 (not_le.2 (of_decide_eq_true hfc))
        · simp at hfc; omega
    · rcases h3 with ⟨-, -, -, h', -⟩ | ⟨-, -, h', -⟩ | ⟨-, h', -, -⟩ | ⟨hok, s2, hc, hfin⟩
      · cases h'
      · cases h'
      · cases h'
      · obtain ⟨-, -, -, h4⟩ := finish_ok hfin
        rcases h4 with ⟨h', -⟩ | ⟨-, rfl, -, -⟩
        · cases h'
        · simp only [completed] at hn
          split_ifs at hn <;> simp [lastCompleted] at hn
  · have hn' := hI.1.1.onNone hn
    exact hm (hn'.2.2.2.2.2 (by omega)).1

/-- The ends of an admissible solve of a program with constraints. -/
theorem solve_ok {p : Prog R} {r : Result R}
    (ha : p.quadratic = false ∨ (cfg.lineSearch = true ∧ cfg.rescaling = false))
    (hc : p.constraints ≠ 0) (h : solve sqrt p cfg o = .ok r) :
    ∃ p' st, p' = initProgram (clearStatus p) cfg ∧ p'.stats = some st ∧ p'.quadratic = p.quadratic ∧
      p'.status = ⟨false, p.status.numIter, false, false⟩ ∧
      ∃ c s, loop sqrt cfg p.quadratic o cfg.maxIter.toNat 0 (start cfg st) = .ok (c, s) ∧
      ((c = .fail ∧ r = ⟨false, { p' with stats := some s.stats }, .untouched, s.trace, none⟩) ∨
       (c = .demand ∧ r = ⟨true, { p' with stats := some s.stats }, .untouched, s.trace, none⟩) ∨
       (c = .brk ∧ post cfg p' s = .ok r)) := by
  unfold solve at h
  have hc' : ¬ (clearStatus p).constraints = 0 := hc
  rw [if_neg (not_not.2 ha)] at h
  simp only [hc', if_false] at h
  generalize hp : initProgram (clearStatus p) cfg = p' at h
  have hq : p'.quadratic = p.quadratic ∧ p'.status = ⟨false, p.status.numIter, false, false⟩ := by
    rw [← hp]
    unfold initProgram
    split_ifs <;> exact ⟨rfl, rfl⟩
  cases hs : p'.stats with
  | none => simp [hs] at h
  | some st =>
    simp only [hs, bind_eq_ok] at h
    obtain ⟨⟨c, s⟩, hl, h⟩ := h
    refine ⟨p', st, rfl, hs, hq.1, hq.2, c, s, by rw [← hq.1]; exact hl, ?_⟩
    cases c with
    | next =>
      exfalso
      have : ∀ n i s c s', loop sqrt cfg p'.quadratic o n i s = .ok (c, s') → c ≠ .next := by
        intro n
        induction n with
        | zero => intro i s c s' h; simp [loop] at h; simp [← h.1]
        | succ n ih =>
          intro i s c s' h
          simp only [loop, bind_eq_ok] at h
          obtain ⟨⟨c1, s1⟩, h1, h2⟩ := h
          cases c1 with
          | next => exact ih _ _ _ _ h2
          | _ => simp only [Outcome.pure_eq, Outcome.ok.injEq, Prod.mk.injEq] at h2; simp [← h2.1]
      exact this _ _ _ _ _ hl rfl
    | brk => exact .inr (.inr ⟨rfl, h⟩)
    | fail =>
      simp only [Outcome.pure_eq, Outcome.ok.injEq] at h
      exact .inl ⟨rfl, h.symm⟩
    | demand =>
      simp only [Outcome.pure_eq, Outcome.ok.injEq] at h
      exact .inr (.inl ⟨rfl, h.symm⟩)

/-- What the code after the loop reports. -/
theorem post_ok {p : Prog R} {s : State R} {r : Result R} (h : post cfg p s = .ok r) :
    ∃ n, s.stats.numIter = some n ∧
      r.ret = (!overThreshold cfg s.k && !s.maxReached) ∧
      r.prog.status = ⟨r.ret, some n, overThreshold cfg s.k && decide (s.cx * s.k ≤ -(1 / 2)),
        overThreshold cfg s.k && decide (1 / 2 ≤ s.bY * s.k)⟩ ∧
      r.prog.stats = some s.stats ∧
      r.trace = (if cfg.prepareDual then .dualFactor :: s.trace else s.trace) ∧
      r.final = some (s.k, s.kMax) ∧
      ((overThreshold cfg s.k = true ∧ r.out = .raw s.y) ∨
       (overThreshold cfg s.k = false ∧ ∃ c, s.stats.cScale = some c ∧
          r.out = .scaled s.y s.k c)) := by
  unfold post at h
  simp only [bind_eq_ok, readVar_eq] at h
  obtain ⟨n, hn, out, hout, h⟩ := h
  simp only [Outcome.pure_eq, Outcome.ok.injEq] at h
  subst h
  unfold output at hout
  refine ⟨n, hn, rfl, rfl, rfl, rfl, rfl, ?_⟩
  cases ho : overThreshold cfg s.k with
  | true =>
    simp only [ho, if_true, Outcome.ok.injEq] at hout
    exact .inl ⟨rfl, hout.symm⟩
  | false =>
    simp only [ho, Bool.false_eq_true, if_false, bind_eq_ok, readVar_eq] at hout
    obtain ⟨c, hc, hout⟩ := hout
    simp only [Outcome.pure_eq, Outcome.ok.injEq] at hout
    exact .inr ⟨rfl, c, hc, hout.symm⟩

theorem factorizations_dual (t : List (Ev R)) (b : Bool) :
    factorizations (if b then .dualFactor :: t else t) = factorizations t + if b then 1 else 0 := by
  cases b <;> simp [factorizations]

theorem steps_dual (t : List (Ev R)) (b : Bool) :
    steps (if b then .dualFactor :: t else t) = steps t := by
  cases b <;> simp [steps]

theorem centering_dual (t : List (Ev R)) (b : Bool) :
    centeringSteps (if b then .dualFactor :: t else t) = centeringSteps t := by
  cases b <;> simp [centeringSteps]

theorem lastCompleted_dual (t : List (Ev R)) (b : Bool) :
    lastCompleted (if b then .dualFactor :: t else t) = lastCompleted t := by
  cases b <;> simp [lastCompleted]

theorem lastFactor_dual (t : List (Ev R)) (b : Bool) :
    lastFactor (if b then .dualFactor :: t else t) = lastFactor t := by
  cases b <;> simp [lastFactor]

theorem lastParameter_dual (t : List (Ev R)) (b : Bool) :
    lastParameter (if b then .dualFactor :: t else t) = lastParameter t := by
  cases b <;> simp [lastParameter]

end Verif.SolveLoop
