import Verif.Model.LineSearch
import Verif.Model.WholeSolve

/-!
# A whole solve with the choice of its barrier parameters

Model of `Solve` (`/repo/conex/cone_program.cc` 235-533) as in `Model/WholeSolve`, with the three answers that are given
from outside there computed: `ComputeMuFromLineSearch` (lines 118-160) with the two linear solves and the line searches of
the constraints, `ComputeMuFromDivergence` (lines 173-214) with its linear solve and the weighted slacks of the
constraints, and the KKT error (line 466).  No answer is left open: the result is a function of the program, the options,
and the external functions of `Env` and `Linear`.
-/

namespace Verif.Whole

open Dual Finset LineSearch

variable {R : Type} [Field R] [LinearOrder R]

/-- Options and constants: `dinf_upper_bound` (`/repo/conex/cone_program.h` 26), the largest double
(`/repo/conex/newton_step.h` 45-48) and `divergence_upper_bound` (`/repo/conex/cone_program.h` 24). -/
structure Search (R : Type) where
  dmax : R
  big : R
  factor : R

/-- `PerformLineSearch` of a constraint, on a fresh output: the flag (true: failure) and the output.  Constraints
without an overload use the template of `/repo/conex/constraint.h` 24-28, whose `CONEX_DEMAND` returns 1. -/
def itemSearch (S : Search R) (c0 c1 : R) (len : Nat) (y0 y1 : Nat → R) : Item R → Outcome (Bool × Interval R)
  | .linear o w => performLineSearch o w.W c0 c1 S.dmax len y0 y1 (Interval.default S.big)
  | .equality _ => trivialLineSearch (Interval.default S.big)
  | .cost _ _ => trivialLineSearch (Interval.default S.big)
  | _ => .ok (true, Interval.default S.big)

/-- Lines 147-152: the tighter bounds. -/
def meet (out i : Interval R) : Interval R :=
  { lower := if out.lower.lt i.lower then i.lower else out.lower
    upper := if i.upper.lt out.upper then i.upper else out.upper }

/-- The loop of `ComputeMuFromLineSearch`, `/repo/conex/cone_program.cc` 137-153; `none` is the early return of -1. -/
def searchEntries (S : Search R) (c0 c1 : R) (N : Nat) (y0 y1 : Nat → R) :
    List (Entry R) → Interval R → Outcome (Option (Interval R))
  | [], out => .ok (some out)
  | e :: es, out => do
    let z0 ← gather N y0 e.vars
    let z1 ← gather N y1 e.vars
    let r ← itemSearch S c0 c1 e.vars.length z0 z1 e.item
    if r.1 then .ok none else searchEntries S c0 c1 N y0 y1 es (meet out r.2)

/-- Lines 154-159.  The bounds are numbers when they are returned (`Lemmas/WholeSearch`). -/
def searchResult : Option (Interval R) → Outcome R
  | none => .ok (-1)
  | some out =>
    if out.lower.le out.upper then
      match out.upper with
      | .fin t => .ok t
      | _ => .ub
    else .ok (-1)

/-- `ComputeMuFromLineSearch`, `/repo/conex/cone_program.cc` 118-160, as it is called at 377-380. -/
def searchMu (S : Search R) (p : Iteration.Setup R) (es : List (Entry R)) (r : Sup.Resid R) (solver : Sup.Solver R) :
    Outcome R := do
  let y0 ← solver.solveInPlace p.qr p.N fun u => -2 * r.AW u
  let y1 ← solver.solveInPlace p.qr p.N fun u => r.AQc u * p.cs + p.b u * p.bs - 2 * r.AW u
  let o ← searchEntries S (p.cs * 0) (p.cs * 1) p.N y0 y1 es (Interval.default S.big)
  searchResult o

/-- The line search is called if the barrier parameter is to be changed and the options say so, line 374-377. -/
def searchIf (S : Search R) (p : Iteration.Setup R) (es : List (Entry R)) (r : Sup.Resid R) (solver : Sup.Solver R)
    (call : Bool) : Outcome R :=
  if call then searchMu S p es r solver else .ok 0

/-- `GetWeightedSlackEigenvalues` of a constraint, on fresh data: the squared norm, the trace, and the smallest and the
largest eigenvalue.  `none`: the eigenvalues are NaN, or they were not written and keep their initial values, the largest
double and its negative (`/repo/conex/newton_step.h` 15-16); in both cases the comparisons of
`/repo/conex/cone_program.cc` 46-51 fail.  The squared norm and the trace of a matrix inequality do not depend on the
approximate eigenvalues.  The random vector of a Hermitian matrix inequality is the one of `PrepareStep`. -/
def itemSlack (v : Env R) (c : R) (len : Nat) (y : Nat → R) : Item R → Outcome (R × R × Option (R × R))
  | .linear o w => do
    let t ← Linear.slackData o w len y c ⟨0, 0, 0, 0, 0⟩
    .ok (t.frob, t.trace, some (t.lmin, t.lmax))
  | .lmi _ o w => do
    let s ← Lmi.negativeSlack o c len y
    let t ← Lmi.slackData v.sqrt v.tri o w len y c ⟨0, 0, 0, 0, 0⟩
    .ok ((w.W * s * (w.W * s)).trace, -(w.W * s).trace, t.map fun t => (t.lmin, t.lmax))
  | .hermitian d n _ o w => do
    let s ← HermLmi.negativeSlack o c len y
    let t ← HermLmi.slackData v.sqrt v.tri (v.start d n) o w len y c ⟨0, 0, 0, 0, 0⟩
    let WS := Hyper.multiply w.W s
    .ok ((Hyper.multiply WS WS 0).trace, -(WS 0).trace, t.map fun t => (t.lmin, t.lmax))
  | .octonion _ o w => do
    let t ← HermLmi.slackDataOct o w len y c ⟨0, 0, 0, 0, 0⟩
    .ok (t.frob, t.trace, some (t.lmin, t.lmax))
  | .soc o w => do
    let t ← Soc.slackData v.sqrt o w len y c ⟨0, 0, 0, 0, 0⟩
    .ok (t.frob, t.trace, some (t.lmin, t.lmax))
  | .quad o w => do
    let t ← QuadCone.slackData v.sqrt o w len y c ⟨0, 0, 0, 0, 0⟩
    .ok (t.frob, t.trace, some (t.lmin, t.lmax))
  | .equality _ => .ok (0, 0, none)
  | .cost _ _ => .ok (0, 0, none)

/-- `/repo/conex/cone_program.cc` 46-53. -/
def joinSlack (p : Divergence.Slack R) (t : R × R × Option (R × R)) : Divergence.Slack R :=
  { frob := p.frob + t.1
    trace := p.trace + t.2.1
    lmin := match t.2.2 with
      | some e => if e.1 < p.lmin then e.1 else p.lmin
      | none => p.lmin
    lmax := match t.2.2 with
      | some e => if p.lmax < e.2 then e.2 else p.lmax
      | none => p.lmax
    rank := p.rank }

/-- The loop of `GetWeightedSlackEigenvalues`, `/repo/conex/cone_program.cc` 39-56. -/
def slackEntries (v : Env R) (c : R) (N : Nat) (y : Nat → R) :
    List (Entry R) → Divergence.Slack R → Outcome (Divergence.Slack R)
  | [], p => .ok p
  | e :: es, p => do
    let z ← gather N y e.vars
    let t ← itemSlack v c e.vars.length z e.item
    slackEntries v c N y es (joinSlack p t)

/-- `ComputeMuFromDivergence`, `/repo/conex/cone_program.cc` 173-214, as it is called at 389-391.  Divisions by zero in
`Divergence.muFromDivergence` yield infinities or NaN in the code and zero here; in both cases `BoundIsFinite` rejects
the result or the comparison with the limits fails. -/
def divergenceMu (v : Env R) (S : Search R) (p : Iteration.Setup R) (es : List (Entry R)) (r : Sup.Resid R)
    (solver : Sup.Solver R) : Outcome R := do
  let y ← solver.solveInPlace p.qr p.N fun u => r.AQc u * p.cs - p.b u * p.bs
  let t ← slackEntries v p.cs p.N y es ⟨0, 0, 30000, -30000, rank es⟩
  .ok (Divergence.muFromDivergence v.sqrt S.factor t)

/-- The divergence is used if there is no parameter from the line search, lines 385-391. -/
def divergenceIf (v : Env R) (S : Search R) (p : Iteration.Setup R) (es : List (Entry R)) (r : Sup.Resid R)
    (solver : Sup.Solver R) (call : Bool) : Outcome R :=
  if call then divergenceMu v S p es r solver else .ok 0

/-- The results of the line search and of the divergence, where they are called, lines 374-392. -/
def chosenMu (v : Env R) (S : Search R) (p : Iteration.Setup R) (cfg : SolveLoop.Config R) (quadratic upd : Bool) (k : R)
    (es : List (Entry R)) (r : Sup.Resid R) (solver : Sup.Solver R) : Outcome (R × R) := do
  let t ← searchIf S p es r solver (upd && cfg.lineSearch)
  let d ← divergenceIf v S p es r solver
    (upd && decide ((if cfg.lineSearch then (if t < 0 then k else t) else -1) < 0) && !quadratic)
  .ok (t, d)

/-- What the comparison `kkt_error > config.kkt_error_tolerance` of line 325 makes of the error. -/
def comparable (tol : R) : Ext R → R
  | .fin x => x
  | .pinf => tol + 1
  | _ => tol

/-- The KKT error of a step, `/repo/conex/cone_program.cc` 438, 454-457, 466. -/
def stepError (sqrt : R → R) (tol k bs cs : R) (es : List (Entry R)) (st : Iteration.Step R) : R :=
  comparable tol (KktError.kktError st.cx st.bY (KktError.sDotX sqrt (rank es) st.normsqrd k bs cs))

/-- The answers of an iteration with line search `a.1` and divergence `a.2`. -/
def answers (a : R × R) : SolveLoop.Oracle R :=
  ⟨fun _ => true, fun _ => a.1, fun _ => a.2, fun _ => 0, fun _ => 0, fun _ => 0, fun _ => 0, 0, 0⟩

/-- The loop body, `/repo/conex/cone_program.cc` 312-482. -/
def bodySearch (v : Env R) (S : Search R) (p : Iteration.Setup R) (cfg : SolveLoop.Config R) (quadratic : Bool)
    (i : Nat) (q : State R) : Outcome (SolveLoop.Ctl × State R) :=
  let fc := SolveLoop.finalCentering cfg i q.s
  let upd := SolveLoop.updateMu cfg i q.s
  let s := { q.s with aborted := false }
  if fc = true ∧ cfg.finalSteps ≤ s.centering then
    .ok (.brk, { q with s := { s with maxReached := decide (cfg.maxIter - 1 ≤ (i : Int)) } })
  else do
    let f ← Iteration.factorize v p q.x
    let s ← SolveLoop.rescale v.sqrt cfg
      { answers (0, 0) with bNorm := norm v.sqrt p.N p.b, aqcNorm := norm v.sqrt p.N f.r.AQc } i s
    match f.solver with
    | none =>
      let s := { s with trace := .factor i false :: s.trace }
      if i = 0 ∧ cfg.mode = 1 then
        .ok (.next, ⟨{ s with aborted := true, trace := .reset i :: s.trace }, ⟨identity q.x.es, f.sys, q.x.mat⟩, q.last⟩)
      else .ok (.fail, { q with s := s })
    | some solver => do
      let s := { s with trace := .factor i true :: s.trace }
      let bs ← SolveLoop.readVar s.stats.bScale
      let cs ← SolveLoop.readVar s.stats.cScale
      let t ← chosenMu v S { p with bs := bs, cs := cs } cfg quadratic upd s.k q.x.es f.r solver
      match SolveLoop.chooseMu cfg quadratic (answers t) i upd s with
      | none => .ok (.demand, { q with s := s })
      | some s => do
        let k := SolveLoop.applyLimits s.k (SolveLoop.kMin v.sqrt cfg) s.kMax
        let a ← advanceAt v { p with bs := bs, cs := cs } cfg i k q.x f.sys f.r solver
        let r ← SolveLoop.finish v.sqrt cfg quadratic
          { answers t with norm := fun _ => a.1.norm, cx := fun _ => a.1.cx, bY := fun _ => a.1.bY,
                               kkt := fun _ => stepError v.sqrt cfg.kktTol k bs cs q.x.es a.1 } i fc upd s
        .ok (r.1, ⟨r.2, a.2, some a.1⟩)

/-- The loop, `/repo/conex/cone_program.cc` 311; `n` is the number of iterations left. -/
def loopSearch (v : Env R) (S : Search R) (p : Iteration.Setup R) (cfg : SolveLoop.Config R) (quadratic : Bool) :
    Nat → Nat → State R → Outcome (SolveLoop.Ctl × State R)
  | 0, _, q => .ok (.brk, q)
  | n + 1, i, q => do
    let r ← bodySearch v S p cfg quadratic i q
    match r.1 with
    | .next => loopSearch v S p cfg quadratic n (i + 1) r.2
    | d => .ok (d, r.2)

/-- `Solve` on the program state `p`, as `solveAt`. -/
def solveSearchAt (v : Env R) (l : Linear R) (S : Search R) (P : Program R) (p : SolveLoop.Prog R)
    (cfg : SolveLoop.Config R) : Outcome (Result R) :=
  if ¬ (P.quadratic = false ∨ (cfg.lineSearch = true ∧ cfg.rescaling = false)) then
    .ok ⟨⟨true, p, .untouched, [], none⟩, none, none, some P.es⟩
  else
    let p := SolveLoop.clearStatus p
    if P.es.length = 0 then .ok ⟨⟨false, p, .infinite, [], none⟩, none, none, some P.es⟩
    else if p.initialized = false ∧ cfg.mode ≠ 0 then .ub
    else do
      let kkt ← Sup.kktInit (P.es.map Entry.vars) P.duals
      let p := SolveLoop.initProgram p cfg
      match p.stats with
      | none => .ub
      | some stats => do
        let setup : Iteration.Setup R := ⟨P.N, P.b, 1, 1, kkt, l.useQr, l.refine, l.llt, l.qr⟩
        let r ← loopSearch v S setup cfg P.quadratic cfg.maxIter.toNat 0
          ⟨SolveLoop.start cfg stats, ⟨if cfg.mode = 0 then identity P.es else P.es, P.sys, l.mat⟩, none⟩
        match r.1 with
        | .fail => .ok ⟨⟨false, { p with stats := some r.2.s.stats }, .untouched, r.2.s.trace, none⟩, none, r.2.last,
          some r.2.x.es⟩
        | .demand => .ok ⟨⟨true, { p with stats := some r.2.s.stats }, .untouched, r.2.s.trace, none⟩, none, r.2.last,
          some r.2.x.es⟩
        | _ => do
          let res ← SolveLoop.post cfg p r.2.s
          let es ← after v setup cfg r.2
          .ok ⟨res, array res.out r.2.last, r.2.last, es⟩

/-- `Solve` on a program that was not solved before. -/
def solveSearch (v : Env R) (l : Linear R) (S : Search R) (P : Program R) (cfg : SolveLoop.Config R)
    (status : SolveLoop.Status) : Outcome (Result R) :=
  solveSearchAt v l S P ⟨P.quadratic, P.es.length, false, none, status⟩ cfg

end Verif.Whole
