import Verif.Lemmas.SolutionArray
import Verif.Props.Solve

/-!
# Properties of the array for the solution (C70)

`Conex.new` and `runs` are the constructor of the Python class and a sequence of its calls, as in C64.
-/

namespace Verif.Buffer

open CApi SolveLoop

variable {R : Type} [Field R] [LinearOrder R]

/-- A solve that would return by itself overruns the array of the caller exactly if the array has fewer
entries than the program has cost coefficients and the solve does not take an early exit; otherwise it
writes all of the first entries, one for each variable, or none at all. -/
theorem C70_overrun_iff (sqrt : R → R) (p : Program R) (stats : Option (Stats R)) (status : Status)
    (cfg : Config R) (o : Oracle R) (yr : Nat) (r : Result R)
    (h : solve sqrt (toProg p stats status) cfg o = .ok r) :
    (conexSolve sqrt p stats status cfg o yr = .ub ↔
      r.out ≠ .untouched ∧ yr < p.linearCost.length) ∧
    ∀ r' w, conexSolve sqrt p stats status cfg o yr = .ok (r', w) →
      r' = r ∧ (∀ i ∈ w, i < yr) ∧
        ((r.out = .untouched ∧ w = []) ∨ ∀ i, i ∈ w ↔ i < p.linearCost.length) := by
  unfold conexSolve
  simp only [h, Outcome.bind_ok]
  by_cases ha : (cells p.linearCost.length r.out).all (· < yr) = true
  · rw [if_pos ha]
    refine ⟨⟨fun h' => by simp at h', fun h' => absurd ha (cells_not_all h'.2 h'.1)⟩, ?_⟩
    intro r' w hw
    simp only [Outcome.ok.injEq, Prod.mk.injEq] at hw
    obtain ⟨rfl, rfl⟩ := hw
    refine ⟨rfl, fun i hi => by simpa using List.all_eq_true.1 ha i hi, ?_⟩
    by_cases ho : r.out = .untouched
    · left
      rw [ho]
      exact ⟨rfl, rfl⟩
    · right
      intro i
      rw [mem_cells]
      exact ⟨fun h' => h'.2, fun h' => ⟨ho, h'⟩⟩
  · rw [if_neg ha]
    refine ⟨⟨fun _ => ⟨fun ho => ha ?_, ?_⟩, fun _ => rfl⟩, fun r' w hw => by simp at hw⟩
    · rw [ho]
      rfl
    · by_contra hlt
      exact ha (cells_all (by omega))

example : ((solve exSqrt (toProg (Program.new 2) none ⟨false, none, false, false⟩) exCfg
      exOracle).toOption.map (·.out)) = some .infinite := by
  decide +kernel

/-- With an array that has an entry for each variable, `CONEX_Solve` is undefined only if the solver itself
is, and writes to the array only. -/
theorem C70_fits_partial (sqrt : R → R) (p : Program R) (stats : Option (Stats R)) (status : Status)
    (cfg : Config R) (o : Oracle R) (yr : Nat) (h : p.linearCost.length ≤ yr) :
    (conexSolve sqrt p stats status cfg o yr = .ub →
      solve sqrt (toProg p stats status) cfg o = .ub) ∧
    ∀ r w, conexSolve sqrt p stats status cfg o yr = .ok (r, w) →
      solve sqrt (toProg p stats status) cfg o = .ok r ∧ ∀ i ∈ w, i < yr := by
  rw [conexSolve_fits h]
  cases solve sqrt (toProg p stats status) cfg o with
  | ok r =>
    simp only [Outcome.bind_ok]
    refine ⟨fun h' => by simp at h', fun r' w hw => ?_⟩
    simp only [Outcome.ok.injEq, Prod.mk.injEq] at hw
    obtain ⟨rfl, rfl⟩ := hw
    refine ⟨rfl, fun i hi => ?_⟩
    have := (mem_cells.1 hi).2
    omega
  | throws => exact ⟨fun h' => (by cases h'), fun r w hw => (by cases hw)⟩
  | ub => exact ⟨fun _ => rfl, fun r w hw => by cases hw⟩
  | diverges => exact ⟨fun h' => (by cases h'), fun r w hw => (by cases hw)⟩

example : (Program.new 3 : Program ℚ).linearCost.length ≤ 3 := by decide +kernel

/-- A program built by the Python class as in `C64_served_partial`: `Solve` and `Maximize` allocate an array
with one entry for each variable, and write to it only. -/
theorem C70_python_partial (N : Nat) (h1 : 1 ≤ N) (hN : N < 2 ^ 31) (l : List Py.Spec.Call)
    (hl : ∀ c ∈ l, c.Fits N) (sqrt : R → R) (cfg : Config R) (o : Oracle R)
    (stats : Option (Stats R)) (status : Status) (b : List R) :
    ∃ s s' : Py.Conex R, Py.Conex.new (N : Int) = .ok s ∧ Py.Spec.runs s l = .ok s' ∧
      (pySolve sqrt s' stats status cfg o = .ub →
        solve sqrt (toProg s'.prog stats status) { cfg with lineSearch := true, rescaling := false } o =
          .ub) ∧
      (∀ r w, pySolve sqrt s' stats status cfg o = .ok (r, w) → ∀ i ∈ w, i < N) ∧
      (pyMaximize sqrt s' b stats status cfg o = .ub →
        solve sqrt (toProg s'.prog stats status) cfg o = .ub) ∧
      (∀ r w, pyMaximize sqrt s' b stats status cfg o = .ok (r, w) → ∀ i ∈ w, i < N) ∧
      (pyMaximize sqrt s' b stats status cfg o ≠ .throws → b.length = N) := by
  obtain ⟨s, hs, hi⟩ := Py.new_inv (R := R) N h1
  obtain ⟨s', hr, hi'⟩ := Py.Inv.runs hN l hl hi
  have hm : s'.m = N := hi'.m
  have ho : npOnes s'.m = .ok N := by
    unfold npOnes
    rw [hm, if_neg (by omega)]
    simp
  have e1 : pySolve sqrt s' stats status cfg o =
      conexSolve sqrt s'.prog stats status { cfg with lineSearch := true, rescaling := false } o N := by
    unfold pySolve
    rw [ho]
    rfl
  have f1 := C70_fits_partial sqrt s'.prog stats status
    { cfg with lineSearch := true, rescaling := false } o N hi'.cost.le
  have e2 : b.length = N → pyMaximize sqrt s' b stats status cfg o =
      conexMaximize sqrt s'.prog b stats status cfg o N := by
    intro hb
    unfold pyMaximize
    rw [hm, if_neg (by simp [hb]), ← hm, ho]
    rfl
  have e3 : b.length ≠ N → pyMaximize sqrt s' b stats status cfg o = .throws := by
    intro hb
    unfold pyMaximize
    rw [hm, if_pos (by exact_mod_cast hb)]
  have hp : ∀ x : Program R, x = ((s'.prog.clearLinearCosts).addLinearCost (b.map fun x => -x)).2 →
      toProg x stats status = toProg s'.prog stats status := by
    rintro x rfl
    unfold Program.addLinearCost Program.clearLinearCosts
    split_ifs <;> rfl
  have f2 := C70_fits_partial sqrt
    ((s'.prog.clearLinearCosts).addLinearCost (b.map fun x => -x)).2 stats status cfg o N
    ((length_maximize s'.prog b).trans hi'.cost.le)
  rw [hp _ rfl] at f2
  refine ⟨s, s', hs, hr, ?_, ?_, ?_, ?_, ?_⟩
  · rw [e1]
    exact f1.1
  · intro r w hw
    rw [e1] at hw
    exact (f1.2 r w hw).2
  · by_cases hb : b.length = N
    · rw [e2 hb]
      exact f2.1
    · rw [e3 hb]
      intro h
      cases h
  · intro r w hw
    by_cases hb : b.length = N
    · rw [e2 hb] at hw
      exact (f2.2 r w hw).2
    · rw [e3 hb] at hw
      cases hw
  · intro h
    by_contra hb
    exact h (e3 hb)

example : ∀ c ∈ [Py.Spec.Call.linear 3 2 [3], .lmi 3 4], c.Fits 2 := by
  simp [Py.Spec.Call.Fits]

/-- The length of the array is ignored: a program with three variables and an array with one entry. -/
theorem C70_short_violated :
    conexSolve exSqrt (Program.new 3) none ⟨false, none, false, false⟩ exCfg exOracle 1 = .ub := by
  decide +kernel

/-- The same through the Python class: with three variables, two inequalities in the first of them set
`self.m` to one; the array has one entry and three are written, although the solve succeeds.  With an array
for three variables all is well. -/
theorem C70_python_violated :
    (do
      let s ← (Py.Conex.new 3 : Outcome (Py.Conex ℚ))
      let s ← s.addLinearInequality 2 1 [2]
      pyMaximize exSqrt s [1] none ⟨false, none, false, false⟩ exCfg exOracle) = .ub ∧
    (do
      let s ← (Py.Conex.new 3 : Outcome (Py.Conex ℚ))
      let s ← s.addLinearInequality 2 1 [2]
      let r ← conexSolve exSqrt s.prog none ⟨false, none, false, false⟩ exCfg exOracle 3
      .ok (r.1.ret, r.2)) = .ok (true, [0, 1, 2]) := by
  decide +kernel

/-- A program with zero variables: `np.ones` accepts 0, so `Solve` does not raise; the solve reports failure and
writes nothing. -/
theorem C70_zero_variables :
    (do
      let s ← (Py.Conex.new 0 : Outcome (Py.Conex ℚ))
      let r ← pySolve exSqrt s none ⟨false, none, false, false⟩ exCfg exOracle
      .ok (r.1.ret, r.2)) = .ok (false, []) := by
  decide +kernel

/-- A program made without a number of variables cannot be solved at all: `np.ones` is called with -1. -/
theorem C70_default_violated (sqrt : R → R) (cfg : Config R) (o : Oracle R)
    (stats : Option (Stats R)) (status : Status) (b : List R) :
    ∃ s : Py.Conex R, Py.Conex.new (-1) = .ok s ∧ pySolve sqrt s stats status cfg o = .throws ∧
      pyMaximize sqrt s b stats status cfg o = .throws := by
  refine ⟨⟨Program.new 0, -1, 0, []⟩, rfl, rfl, ?_⟩
  unfold pyMaximize
  rw [if_pos]
  simp only [ne_eq]
  omega

end Verif.Buffer
