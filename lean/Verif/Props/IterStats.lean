import Mathlib.Algebra.Field.Rat
import Verif.Lemmas.IterStats
import Verif.Props.Solve

/-!
# C08: the statistics of an iteration
-/

namespace Verif.IterStats

open SolveLoop SolveLoop.Spec Spec LineSearch

variable {R : Type} [Field R] [LinearOrder R]
variable {sqrt : R → R} {cfg : Config R} {o : Oracle R} {p : Prog R} {r : Result R}

/-- What is reported, for statistics that hold a history of `n` iterations with parameters `l`: with
`-n ≤ i < n` the parameter and the number of iteration `i`, counted from the end if `i` is
negative; otherwise nothing is written. -/
theorem C08_index {st : Stats R} {l : List R} (hp : p.stats = some st)
    (hn : st.numIter = some l.length)
    (hl : ∀ j, (h : j < l.length) → st.sqrtInvMu.lookup j = some l[j]) (rec : Record R) (i : Int) :
    (∀ j, (h : j < l.length) → (i = j ∨ i = (j : Int) - l.length) →
      getIterationStats (some p) (some rec) i = .ok (some ⟨ediv 1 (l[j] * l[j]), j⟩)) ∧
    (¬ (-(l.length : Int) ≤ i ∧ i < l.length) →
      getIterationStats (some p) (some rec) i = .ok (some rec)) := by
  constructor
  · intro j h hi
    have e : (if i < 0 then (l.length : Int) + i else i) = j := by
      split_ifs <;> omega
    simp only [getIterationStats, hp, hn, readVar, Outcome.bind_ok, e]
    rw [if_neg (by omega)]
    simp [readSlot, hl j h, readVar]
  · intro hi
    simp only [getIterationStats, hp, hn, readVar, Outcome.bind_ok]
    rw [if_pos]
    split_ifs <;> omega

/-- Null pointers are noticed. -/
theorem C08_null (prog : Option (Prog R)) (rec : Option (Record R)) (i : Int)
    (h : prog = none ∨ rec = none) : getIterationStats prog rec i = .ok rec := by
  rcases h with rfl | rfl
  · rfl
  · cases prog <;> rfl

/-- **C08** after a solve that completed at least one iteration, cold or warm started, whatever its
result: the statistics are those of this solve.  Missing: a warm start whose first factorization
fails, and a solve without a completed iteration, see below. -/
theorem C08_solve_partial (h : solve sqrt p cfg o = .ok r)
    (hm : ¬ (cfg.mode = 1 ∧ o.factorOk 0 = false)) (hne : parameters r.trace ≠ [])
    (rec : Record R) (i : Int) :
    (∀ j, (h : j < (parameters r.trace).length) →
      (i = j ∨ i = (j : Int) - (parameters r.trace).length) →
      getIterationStats (some r.prog) (some rec) i =
        .ok (some ⟨ediv 1 ((parameters r.trace)[j] * (parameters r.trace)[j]), j⟩)) ∧
    (¬ (-((parameters r.trace).length : Int) ≤ i ∧ i < (parameters r.trace).length) →
      getIterationStats (some r.prog) (some rec) i = .ok (some rec)) := by
  by_cases ha : p.quadratic = false ∨ (cfg.lineSearch = true ∧ cfg.rescaling = false)
  swap
  · unfold solve at h
    rw [if_pos ha] at h
    cases h
    exact absurd rfl hne
  by_cases hc : p.constraints = 0
  · unfold solve at h
    have hc' : (clearStatus p).constraints = 0 := hc
    rw [if_neg (not_not.2 ha)] at h
    simp only [hc', if_true] at h
    cases h
    exact absurd rfl hne
  obtain ⟨p', st, -, -, -, -, c, s, hl, hr⟩ := solve_ok ha hc h
  have hH := holds_loop hm hl
  have key : r.prog.stats = some s.stats ∧ parameters r.trace = parameters s.trace := by
    rcases hr with ⟨-, rfl⟩ | ⟨-, rfl⟩ | ⟨-, hpost⟩
    · exact ⟨rfl, rfl⟩
    · exact ⟨rfl, rfl⟩
    · obtain ⟨n, -, -, -, h1, h2, -, -⟩ := post_ok hpost
      refine ⟨h1, ?_⟩
      rw [h2]
      split_ifs <;> rfl
  rw [key.2] at hne ⊢
  exact C08_index key.1 (hH.1 hne) hH.2 rec i

/-- The four iterations of the example, and their number. -/
example : (solve exSqrt exProg exCfg exOracle).toOption.map (fun r => parameters r.trace) =
    some [3, 27, 40, 40] ∧ ¬ (exCfg.mode = 1 ∧ exOracle.factorOk 0 = false) ∧
    (solve exSqrt exProg exCfg exOracle >>= fun r =>
      getIterationStats (some r.prog) (some ⟨.nan, 77⟩) (-3)) =
    .ok (some ⟨.fin (1 / 729), 1⟩) := by
  decide +kernel

/-- Before any solve the call dereferences a null pointer, whatever is asked. -/
theorem C08_unsolved_violated (hp : p.stats = none) (rec : Record R) (i : Int) :
    getIterationStats (some p) (some rec) i = .ub := by
  simp [getIterationStats, hp]

example : exProg.stats = none := rfl

/-- After a cold start whose first factorization fails the number of iterations is indeterminate. -/
theorem C08_failed_violated :
    (solve exSqrt exProg exCfg { exOracle with factorOk := fun _ => false } >>= fun r =>
      getIterationStats (some r.prog) (some ⟨.nan, 77⟩) 0) = .ub := by
  decide +kernel

/-- After a warm start whose first factorization fails, but not the following ones, the parameter
reported for iteration 0 is that of the previous solve (`1/3²`), although no direction was computed in
that iteration. -/
theorem C08_stale_slot_violated :
    (do
      let r ← solve exSqrt exProg exCfg exOracle
      let r' ← solve exSqrt r.prog { exCfg with mode := 1 }
        { exOracle with factorOk := fun i => i != 0, divergence := fun _ => 5 }
      let s ← getIterationStats (some r'.prog) (some ⟨.nan, 77⟩) 0
      Outcome.ok (parameters r.trace, r'.trace.getLast?, r'.trace.reverse[1]?, s)) =
    .ok ([3, 27, 40, 40], some (Ev.factor 0 false), some (.reset 0), some ⟨.fin (1 / 9), 0⟩) := by
  decide +kernel

/-- A warm start that performs no iteration leaves the statistics of the previous solve. -/
theorem C08_stale_history_violated :
    (do
      let r ← solve exSqrt exProg exCfg exOracle
      let r' ← solve exSqrt r.prog { exCfg with mode := 1, maxIter := 0 } exOracle
      let s ← getIterationStats (some r'.prog) (some ⟨.nan, 77⟩) 3
      Outcome.ok (parameters r'.trace, s)) =
    .ok ([], some ⟨.fin (1 / 1600), 3⟩) := by
  decide +kernel

end Verif.IterStats
