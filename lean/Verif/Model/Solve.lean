import Mathlib.Algebra.Order.Field.Basic
import Verif.Model.Outcome

/-!
# The optimisation loop: `Solve`

Model of the control flow of `Solve` (`/repo/conex/cone_program.cc` 235-533) and of `Initialize`
(78-112), over exact scalars `R`.

Everything the loop receives from the linear algebra and from the cones is an oracle indexed by the
iteration number (`Oracle`): since a run asks each of these questions at most once per iteration,
a function of the iteration number describes every possible behaviour of these components.

Simplifications:
* scalars are exact and finite: no rounding, NaN or overflow; the two divisions whose divisor can be
  zero (`1.0 / inv_sqrt_mu` after the loop, `2.0 / norm²`) are modelled by their IEEE meaning
  (`+inf`, which exceeds every threshold);
* `int` does not overflow;
* printing and timing are omitted;
* the vector written to the caller's array is recorded symbolically (`Output`);
* `b_scaling`, `c_scaling` are references to the statistics block of the program; they are fields of
  `Stats` here.
-/

namespace Verif.SolveLoop

variable {R : Type}

/-- The fields of `SolverConfiguration` read by `Solve`.  `/repo/conex/cone_program.h` 17-38.
`mode` is `initialization_mode` (0 = cold start, 1 = warm start). -/
structure Config (R : Type) where
  prepareDual : Bool
  mode : Int
  invSqrtMuMax : R
  maximumMu : R
  lineSearch : Bool
  finalSteps : Int
  finalTol : R
  initWarm : Int
  initCold : Int
  warmAbort : R
  maxIter : Int
  infeasThreshold : R
  kktTol : R
  rescaling : Bool
  deriving DecidableEq, Repr

/-- `ConexStatus`, `/repo/conex/cone_program.h` 40-45.  `num_iterations` has no initialiser: `none`
stands for an indeterminate value. -/
structure Status where
  solved : Bool
  numIter : Option Nat
  primalInf : Bool
  dualInf : Bool
  deriving DecidableEq, Repr

/-- `WorkspaceStats`, `/repo/conex/workspace.h` 73-117.  `cap` is `max_iter_`; `num_iter` has no
initialiser and the arrays live in uninitialised memory: `none` is an indeterminate value. -/
structure Stats (R : Type) where
  cap : Int
  numIter : Option Nat
  bScale : Option R
  cScale : Option R
  sqrtInvMu : List (Nat × R)
  deriving DecidableEq, Repr

/-- The part of `Program` (`/repo/conex/cone_program.h` 223-234) that matters for the control flow
of `Solve`.  `stats` is a null pointer (`none`) before the first solve. -/
structure Prog (R : Type) where
  quadratic : Bool
  constraints : Nat
  initialized : Bool
  stats : Option (Stats R)
  status : Status
  deriving DecidableEq, Repr

/-- The answers of the linear algebra and of the cones, by iteration number. -/
structure Oracle (R : Type) where
  /-- `solver->Factor()`, `/repo/conex/cone_program.cc` 360. -/
  factorOk : Nat → Bool
  /-- `ComputeMuFromLineSearch(...)`, line 377. -/
  lineSearch : Nat → R
  /-- `ComputeMuFromDivergence(...)`, line 389. -/
  divergence : Nat → R
  /-- `info.norminfd` after `PrepareStep`, line 422. -/
  norm : Nat → R
  /-- `cx`, lines 447-452. -/
  cx : Nat → R
  /-- `by`, lines 441-442. -/
  bY : Nat → R
  /-- `kkt_error`, line 466. -/
  kkt : Nat → R
  /-- `b.norm()`, line 345. -/
  bNorm : R
  /-- `prog.sys.AQc.norm()`, line 346. -/
  aqcNorm : R

/-- What a run does, in order. -/
inductive Ev (R : Type) where
  /-- `solver->Factor()` of iteration `i` with its answer. -/
  | factor (i : Nat) (ok : Bool)
  /-- The barrier parameter of iteration `i` is fixed: was the update branch taken, was the
  iteration an initial centering iteration, and the value of `inv_sqrt_mu`. -/
  | direction (i : Nat) (update initial : Bool) (k : R)
  /-- `TakeStep` with the given step size. -/
  | step (i : Nat) (size : R)
  /-- `SetIdentity` on all constraints (warm start abandoned). -/
  | reset (i : Nat)
  /-- The factorization of the dual preparation, line 504. -/
  | dualFactor
  deriving DecidableEq, Repr

/-- The local variables of `Solve` that survive an iteration (lines 249, 280-309), the statistics
block, and the events so far (most recent first).  `y` is the iteration whose direction the local
vector `y` holds; `none` while it is uninitialised. -/
structure State (R : Type) where
  k : R
  kMax : R
  kkt : R
  cx : R
  bY : R
  centering : Int
  aborted : Bool
  maxReached : Bool
  y : Option Nat
  stats : Stats R
  trace : List (Ev R)
  deriving DecidableEq, Repr

/-- How one pass through the loop body ends. -/
inductive Ctl where
  /-- next iteration (end of the body, or `continue`) -/
  | next
  /-- `break` -/
  | brk
  /-- `return prog.status_.solved` after a failed factorization, line 370 -/
  | fail
  /-- `return 1` of the `CONEX_DEMAND` at line 387 -/
  | demand
  deriving DecidableEq, Repr

/-- Reading a variable: undefined if it was never written. -/
def readVar {α : Type*} : Option α → Outcome α
  | some a => .ok a
  | none => .ub

section
variable [Field R] [LinearOrder R]

/-- `ApplyLimits`: first the upper, then the lower limit.  `/repo/conex/cone_program.cc`
216-224. -/
def applyLimits (x lb ub : R) : R :=
  let x := if ub < x then ub else x
  if x < lb then lb else x

/-- The step size: `2 / norm²`, at most one.  `/repo/conex/cone_program.cc` 423-426.  At norm zero
the quotient is `+inf`. -/
def stepSize (n : R) : R :=
  if n = 0 then 1 else if 1 < 2 / (n * n) then 1 else 2 / (n * n)

/-- `std::sqrt(1.0 / (1e-15 + config.maximum_mu))`, `/repo/conex/cone_program.cc` 406. -/
def kMin (sqrt : R → R) (cfg : Config R) : R :=
  sqrt (1 / (1 / 10 ^ 15 + cfg.maximumMu))

/-- `initial_centering_steps`, `/repo/conex/cone_program.cc` 298, 306-309. -/
def initialSteps (cfg : Config R) : Int :=
  if cfg.mode ≠ 0 then cfg.initWarm else cfg.initCold

/-- `initial_centering` in iteration `i`, `/repo/conex/cone_program.cc` 299, 312-314.  The variable
starts at 1 and is cleared for good in the first iteration with `i >= initial_centering_steps`; as
`i` grows, it is set exactly while `i < initial_centering_steps`. -/
def initialCentering (cfg : Config R) (i : Nat) : Bool :=
  decide ((i : Int) < initialSteps cfg)

/-- `final_centering`, `/repo/conex/cone_program.cc` 323-326. -/
def finalCentering (cfg : Config R) (i : Nat) (s : State R) : Bool :=
  decide (s.kMax ≤ s.k) || decide (cfg.kktTol < s.kkt) ||
    decide (cfg.maxIter - cfg.finalSteps ≤ (i : Int))

/-- `update_mu`, `/repo/conex/cone_program.cc` 327-328. -/
def updateMu (cfg : Config R) (i : Nat) (s : State R) : Bool :=
  decide (i = 0) || !(initialCentering cfg i || finalCentering cfg i s) || s.aborted

/-- Rescaling in the first iteration, `/repo/conex/cone_program.cc` 343-357. -/
def rescale (sqrt : R → R) (cfg : Config R) (o : Oracle R) (i : Nat) (s : State R) :
    Outcome (State R) :=
  if i < 1 ∧ cfg.rescaling = true then
    let stats := if cfg.mode = 0 then
        { s.stats with bScale := some (1 / (1 + o.bNorm)), cScale := some (1 / (1 + o.aqcNorm)) }
      else s.stats
    do
      let b ← readVar stats.bScale
      let c ← readVar stats.cScale
      pure { s with
        stats := stats
        kMax := 1 / sqrt (1 / (s.kMax * s.kMax) * (b * c)) }
  else .ok s

/-- The candidate `temp` for `inv_sqrt_mu`, `/repo/conex/cone_program.cc` 375-392; `none` is the
`return 1` of line 387. -/
def candidate (cfg : Config R) (quadratic : Bool) (o : Oracle R) (i : Nat) (k : R) : Option R :=
  let temp := if cfg.lineSearch then (if o.lineSearch i < 0 then k else o.lineSearch i) else -1
  if temp < 0 then (if quadratic then none else some (o.divergence i)) else some temp

/-- New `inv_sqrt_mu` and centering counter before the limits are applied,
`/repo/conex/cone_program.cc` 374-403. -/
def chooseMu (cfg : Config R) (quadratic : Bool) (o : Oracle R) (i : Nat) (update : Bool)
    (s : State R) : Option (State R) :=
  if update then
    (candidate cfg quadratic o i s.k).map fun temp =>
      if 0 < temp then { s with k := temp } else { s with k := s.k * (1 / 2) }
  else if initialCentering cfg i = false then some { s with centering := s.centering + 1 }
  else some s

/-- From the limits to the end of the loop body, `/repo/conex/cone_program.cc` 405-482: limits,
direction, step (or abandoned warm start), statistics, and the test for the end.  `fc` and `upd`
are `final_centering` and `update_mu`.  The write `sqrt_inv_mu[i]` is undefined outside the
statistics block; reading an unset scaling is undefined (lines 409-418). -/
def finish (sqrt : R → R) (cfg : Config R) (quadratic : Bool) (o : Oracle R) (i : Nat)
    (fc upd : Bool) (s : State R) : Outcome (Ctl × State R) := do
  let _ ← readVar s.stats.bScale
  let _ ← readVar s.stats.cScale
  let k := applyLimits s.k (kMin sqrt cfg) s.kMax
  let n := o.norm i
  let abort := decide (i = 0) && decide (cfg.mode = 1) && decide (cfg.warmAbort ≤ n)
  let ev := if abort then Ev.reset i else Ev.step i (stepSize n)
  if s.stats.cap ≤ (i : Int) then .ub else
    let s' : State R := { s with
      k := k
      y := some i
      aborted := abort
      cx := o.cx i
      bY := o.bY i
      kkt := if quadratic then s.kkt else o.kkt i
      stats := { s.stats with
        numIter := some (i + 1)
        sqrtInvMu := (i, k) :: s.stats.sqrtInvMu }
      trace := ev :: .direction i upd (initialCentering cfg i) k :: s.trace }
    if (fc || decide (s.kMax ≤ k)) = true ∧ |n| ≤ cfg.finalTol then
      .ok (.brk, { s' with maxReached := false })
    else .ok (.next, s')

/-- The part of the loop body after the early exit, `/repo/conex/cone_program.cc` 338-482. -/
def bodyMain (sqrt : R → R) (cfg : Config R) (quadratic : Bool) (o : Oracle R) (i : Nat)
    (fc upd : Bool) (s : State R) : Outcome (Ctl × State R) := do
  let s ← rescale sqrt cfg o i s
  let s := { s with trace := .factor i (o.factorOk i) :: s.trace }
  if o.factorOk i = false then
    if i = 0 ∧ cfg.mode = 1 then
      pure (.next, { s with aborted := true, trace := .reset i :: s.trace })
    else pure (.fail, s)
  else
    match chooseMu cfg quadratic o i upd s with
    | none => pure (.demand, s)
    | some s => finish sqrt cfg quadratic o i fc upd s

/-- The loop body, `/repo/conex/cone_program.cc` 312-482. -/
def body (sqrt : R → R) (cfg : Config R) (quadratic : Bool) (o : Oracle R) (i : Nat)
    (s : State R) : Outcome (Ctl × State R) :=
  let fc := finalCentering cfg i s
  let upd := updateMu cfg i s
  let s := { s with aborted := false }
  if fc = true ∧ cfg.finalSteps ≤ s.centering then
    .ok (.brk, { s with maxReached := decide (cfg.maxIter - 1 ≤ (i : Int)) })
  else bodyMain sqrt cfg quadratic o i fc upd s

/-- The loop `for (int i = 0; i < config.max_iterations; i++)`, `/repo/conex/cone_program.cc` 311;
`n` is the number of iterations left. -/
def loop (sqrt : R → R) (cfg : Config R) (quadratic : Bool) (o : Oracle R) :
    Nat → Nat → State R → Outcome (Ctl × State R)
  | 0, _, s => .ok (.brk, s)
  | n + 1, i, s => do
    let r ← body sqrt cfg quadratic o i s
    match r.1 with
    | .next => loop sqrt cfg quadratic o n (i + 1) r.2
    | c => pure (c, r.2)

/-- `Initialize`, `/repo/conex/cone_program.cc` 78-112: a new statistics block on a cold start or
when the program was never initialised; scalings are set on a cold start only.  The symbolic
analysis, the workspaces and `SetIdentity` are not part of this model. -/
def initProgram (p : Prog R) (cfg : Config R) : Prog R :=
  if p.initialized = false ∨ cfg.mode = 0 then
    { p with
      initialized := true
      stats := some
        { cap := cfg.maxIter
          numIter := none
          bScale := if cfg.mode = 0 then some 1 else none
          cScale := if cfg.mode = 0 then some 1 else none
          sqrtInvMu := [] } }
  else p

/-- What the caller's array holds afterwards. -/
inductive Output (R : Type) where
  /-- not written -/
  | untouched
  /-- `-linear_cost * inf` (no constraints), line 269 -/
  | infinite
  /-- the direction of iteration `i` (`none`: uninitialised memory), line 486 -/
  | raw (i : Option Nat)
  /-- the same divided by `inv_sqrt_mu` and `c_scaling`, lines 519-520 -/
  | scaled (i : Option Nat) (k c : R)
  deriving DecidableEq, Repr

/-- The result of a call of `Solve`: returned value, program afterwards, output array, events (most
recent first), and the final `inv_sqrt_mu` and its target when the call gets past the loop. -/
structure Result (R : Type) where
  ret : Bool
  prog : Prog R
  out : Output R
  trace : List (Ev R)
  final : Option (R × R)
  deriving DecidableEq, Repr

/-- `mu > config.infeasibility_threshold` with `mu = (1 / inv_sqrt_mu)²`,
`/repo/conex/cone_program.cc` 488-490; at zero `mu` is `+inf`. -/
def overThreshold (cfg : Config R) (k : R) : Bool :=
  decide (k = 0) || decide (cfg.infeasThreshold < 1 / k * (1 / k))

/-- What is written to the caller's array, `/repo/conex/cone_program.cc` 486, 518-521: the scaling
is applied while `status_.solved` still only says that the threshold was not exceeded. -/
def output (cfg : Config R) (s : State R) : Outcome (Output R) :=
  if overThreshold cfg s.k then .ok (.raw s.y)
  else do
    let c ← readVar s.stats.cScale
    pure (.scaled s.y s.k c)

/-- The code after the loop, `/repo/conex/cone_program.cc` 485-532.  Reading `num_iter` before any
iteration was completed is undefined. -/
def post (cfg : Config R) (p : Prog R) (s : State R) : Outcome (Result R) := do
  let n ← readVar s.stats.numIter
  let over := overThreshold cfg s.k
  let pinf := over && decide (s.cx * s.k ≤ -(1 / 2))
  let dinf := over && decide (1 / 2 ≤ s.bY * s.k)
  let trace := if cfg.prepareDual then .dualFactor :: s.trace else s.trace
  let solved := !over && !s.maxReached
  let out ← output cfg s
  pure
    { ret := solved
      prog := { p with
        stats := some s.stats
        status := ⟨solved, some n, pinf, dinf⟩ }
      out := out
      trace := trace
      final := some (s.k, s.kMax) }

/-- The local variables before the loop, `/repo/conex/cone_program.cc` 249, 280-309. -/
def start (cfg : Config R) (stats : Stats R) : State R :=
  { k := 0, kMax := cfg.invSqrtMuMax, kkt := 0, cx := 1, bY := -1, centering := 0, aborted := false,
    maxReached := true, y := none, stats := stats, trace := [] }

/-- The flags are cleared, `/repo/conex/cone_program.cc` 246-248; the iteration count is not. -/
def clearStatus (p : Prog R) : Prog R :=
  { p with status := ⟨false, p.status.numIter, false, false⟩ }

/-- `Solve(prog, config, primal_variable)`, `/repo/conex/cone_program.cc` 235-533. -/
def solve (sqrt : R → R) (p : Prog R) (cfg : Config R) (o : Oracle R) : Outcome (Result R) :=
  if ¬ (p.quadratic = false ∨ (cfg.lineSearch = true ∧ cfg.rescaling = false)) then
    -- `CONEX_DEMAND` at 237: `return 1`
    .ok { ret := true, prog := p, out := .untouched, trace := [], final := none }
  else
    let p := clearStatus p
    if p.constraints = 0 then
      .ok { ret := false, prog := p, out := .infinite, trace := [], final := none }
    else
      let p := initProgram p cfg
      match p.stats with
      | none => .ub
      | some stats => do
        let r ← loop sqrt cfg p.quadratic o cfg.maxIter.toNat 0 (start cfg stats)
        match r.1 with
        | .fail =>
          pure { ret := false, prog := { p with stats := some r.2.stats }, out := .untouched,
                 trace := r.2.trace, final := none }
        | .demand =>
          pure { ret := true, prog := { p with stats := some r.2.stats }, out := .untouched,
                 trace := r.2.trace, final := none }
        | _ => post cfg p r.2

end

end Verif.SolveLoop
