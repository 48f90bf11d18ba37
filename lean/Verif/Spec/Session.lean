import Verif.Model.Session
import Verif.Spec.WholeSolve

/-!
# Specification of several solves (C87)
-/

namespace Verif.Whole.Spec

open Dual

/-- The second item is the first one with another workspace. -/
def Keep : Item ℝ → Item ℝ → Prop
  | .linear o _, x => ∃ w, x = .linear o w
  | .soc o _, x => ∃ w, x = .soc o w
  | .quad o _, x => ∃ w, x = .quad o w
  | .cost n Q, x => x = .cost n Q
  | _, _ => False

/-- The same constraints with other workspaces. -/
def Keeps (es es' : List (Entry ℝ)) : Prop :=
  List.Forall₂ (fun e e' => e'.vars = e.vars ∧ Keep e.item e'.item) es es'

/-- The state of the program belongs to these constraints. -/
def Belongs (P : Program ℝ) (p : SolveLoop.Prog ℝ) : Prop :=
  p.quadratic = P.quadratic ∧ p.constraints = P.es.length

/-- A solve can start where the last one ended: the scaling points lie in the interior of the cones, the scalings are
set, and the statistics block has room for `capacity` iterations. -/
structure Resumable (P : Program ℝ) (p : SolveLoop.Prog ℝ) (capacity : Int) : Prop where
  initialized : p.initialized = true
  interior : ∀ e ∈ P.es, Gap.Spec.Good e P.m
  stats : ∃ s bs cs, p.stats = some s ∧ s.bScale = some bs ∧ s.cScale = some cs ∧ 0 < bs ∧ 0 < cs ∧
    (P.quadratic = true → bs = cs) ∧ s.cap = capacity

/-- The options allow at least one iteration, and are those that a quadratic cost demands. -/
structure Options (quadratic : Bool) (cfg : SolveLoop.Config ℝ) : Prop where
  mu : 0 ≤ 1 / 10 ^ 15 + cfg.maximumMu
  steps : 0 < cfg.finalSteps
  iterations : 0 < cfg.maxIter
  quadratic : quadratic = false ∨ (cfg.lineSearch = true ∧ cfg.rescaling = false)

/-- If the solve reports success and its last direction has norm at most one, then the array holds a feasible point
that is optimal up to a gap. -/
def Answers (P : Program ℝ) (r : Result ℝ) : Prop :=
  ∃ st, r.last = some st ∧
    (r.res.ret = true → ∃ k kMax stats bs cs z, r.res.final = some (k, kMax) ∧ r.res.prog.stats = some stats ∧
      stats.bScale = some bs ∧ stats.cScale = some cs ∧ 0 < k ∧ 0 < bs ∧ 0 < cs ∧ r.array = some z ∧
      (st.norm ≤ 1 → Gap.Spec.Feasible P.es z ∧ ∀ x, Gap.Spec.Feasible P.es x →
        value P z ≤ value P x + (rank P.es - st.normsqrd) / (k ^ 2 * bs * cs)))

/-- If the solve reports success, then the array holds a feasible point that is optimal up to a gap. -/
def Correct (P : Program ℝ) (r : Result ℝ) : Prop :=
  ∃ st, r.last = some st ∧
    (r.res.ret = true → ∃ k kMax stats bs cs z, r.res.final = some (k, kMax) ∧ r.res.prog.stats = some stats ∧
      stats.bScale = some bs ∧ stats.cScale = some cs ∧ 0 < k ∧ 0 < bs ∧ 0 < cs ∧ r.array = some z ∧
      Gap.Spec.Feasible P.es z ∧ ∀ x, Gap.Spec.Feasible P.es x →
        value P z ≤ value P x + (rank P.es - st.normsqrd) / (k ^ 2 * bs * cs))

/-- The calls may follow one another.  A warm start needs a solve before it that did not prepare dual variables, and
the capacity `c` of the statistics block, which is that of the last cold start, for its iterations (F5). -/
def Follow (P : Program ℝ) : Option Int → List (Request ℝ) → Prop
  | _, [] => True
  | c, q :: qs => Options P.quadratic q.cfg ∧ Iteration.Spec.Sized P.es q.sys ∧
      (q.cfg.mode = 0 ∨ ∃ n, c = some n ∧ q.cfg.maxIter ≤ n) ∧
      Follow P (if q.cfg.prepareDual = true then none else if q.cfg.mode = 0 then some q.cfg.maxIter else c) qs

end Verif.Whole.Spec
