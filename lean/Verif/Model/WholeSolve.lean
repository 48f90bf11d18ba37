import Verif.Model.Iteration

/-!
# A whole solve

Model of `Solve` (`/repo/conex/cone_program.cc` 235-533), with the control flow of `Model/Solve` and the numerical
part of `Model/Iteration` in place of its oracle: norms, objective values, the success of the factorization and the
norms used for rescaling are those of the program.  Three answers remain given from
outside: `ComputeMuFromLineSearch` (line 377), `ComputeMuFromDivergence` (line 389) and the KKT error (line 466),
all of which only influence the choice of the barrier parameter and the moment of leaving the loop.

Printing and timing are left out.
-/

namespace Verif.Whole

open Dual Finset

variable {R : Type} [Field R] [LinearOrder R]

/-- `SetIdentity`, `/repo/conex/constraint.h` 62: the ones of the constraints; for equations and quadratic costs
nothing happens (`/repo/conex/equality_constraint.h` 31, `/repo/conex/quadratic_cost.cc` 26). -/
def setIdentity : Item R → Item R
  | .linear o w => .linear o (Linear.setIdentity w)
  | .lmi n o w => .lmi n o (Lmi.setIdentity w)
  | .hermitian d n hd o w => .hermitian d n hd o (HermLmi.setIdentity w)
  | .octonion n o w => .octonion n o (HermLmi.setIdentity w)
  | .soc o w => .soc o (Soc.setIdentity w)
  | .quad o w => .quad o (QuadCone.setIdentity w)
  | .equality o => .equality o
  | .cost n Q => .cost n Q

/-- `SetIdentity` of all constraints, `/repo/conex/cone_program.cc` 25-29. -/
def identity (es : List (Entry R)) : List (Entry R) := es.map fun e => ⟨e.vars, setIdentity e.item⟩

/-- The program as it is stored: number of variables, `linear_cost_`, constraints with their workspaces,
multipliers of the equations (`dual_vars`), the systems of the constraints, and whether
`contains_quadratic_costs_` is set. -/
structure Program (R : Type) where
  m : Nat
  cost : Nat → R
  es : List (Entry R)
  duals : List (List Nat)
  sys : List (Schur.Sys R)
  quadratic : Bool

/-- `SizeOfKKTSystem`, `/repo/conex/constraint_manager.h` 42-48. -/
def Program.N (P : Program R) : Nat := P.m + (P.duals.map List.length).sum

/-- `b`, `/repo/conex/cone_program.cc` 242, 294-296. -/
def Program.b (P : Program R) (u : Nat) : R := if u < P.m then -P.cost u else 0

/-- The options and functions of the linear solver. -/
structure Linear (R : Type) where
  useQr : Bool
  refine : Nat
  llt : Nat → (Nat → Nat → R) → Option (Nat → Nat → R)
  qr : Nat → (Nat → Nat → R) → (Nat → R) → Nat → R
  /-- what the supernodal matrix holds at first -/
  mat : Sup.Store R

/-- The Euclidean norm of the first `n` entries. -/
def norm (sqrt : R → R) (n : Nat) (x : Nat → R) : R := sqrt (∑ u ∈ range n, x u * x u)

/-- The state of the loop: its local variables, the constraints, and the values of the last iteration. -/
structure State (R : Type) where
  s : SolveLoop.State R
  x : Iteration.State R
  last : Option (Iteration.Step R)

/-- The first iteration of a warm start for the barrier parameter `k`, `/repo/conex/cone_program.cc` 408-435, 441-452:
from the norm `threshold` on the warm start is abandoned, and `SetIdentity` takes the place of the step. -/
def advanceWarm (v : Env R) (p : Iteration.Setup R) (threshold k : R) (x : Iteration.State R)
    (sys : List (Schur.Sys R)) (r : Sup.Resid R) (solver : Sup.Solver R) :
    Outcome (Iteration.Step R × Iteration.State R) := do
  let y ← solver.solveInPlace p.qr p.N (Iteration.rhs p k r)
  let q ← Dual.prepareStep v (k * p.cs) p.N y x.es
  let st : Iteration.Step R := ⟨y, q.2.1, q.2.2, KktError.byValue p.N p.b y k p.cs,
    KktError.cxValue p.N r y k p.bs p.cs, solver.fact⟩
  if threshold ≤ q.2.1 then .ok (st, ⟨identity q.1, sys, solver.mat⟩)
  else do
    let es ← Dual.takeStep v (SolveLoop.stepSize q.2.1) q.1
    .ok (st, ⟨es, sys, solver.mat⟩)

/-- Iteration `i` for the barrier parameter `k`. -/
def advanceAt (v : Env R) (p : Iteration.Setup R) (cfg : SolveLoop.Config R) (i : Nat) (k : R) (x : Iteration.State R)
    (sys : List (Schur.Sys R)) (r : Sup.Resid R) (solver : Sup.Solver R) :
    Outcome (Iteration.Step R × Iteration.State R) :=
  if i = 0 ∧ cfg.mode = 1 then advanceWarm v p cfg.warmAbort k x sys r solver
  else Iteration.advance v p k x sys r solver

/-- The loop body, `/repo/conex/cone_program.cc` 312-482; `p` is the setup of the iterations, whose scalings are those
of the statistics block.  If the first factorization of a warm start fails, what is left in the matrix does not
matter, as it is assembled anew. -/
def body (v : Env R) (p : Iteration.Setup R) (cfg : SolveLoop.Config R) (quadratic : Bool) (c : SolveLoop.Oracle R)
    (i : Nat) (q : State R) : Outcome (SolveLoop.Ctl × State R) :=
  let fc := SolveLoop.finalCentering cfg i q.s
  let upd := SolveLoop.updateMu cfg i q.s
  let s := { q.s with aborted := false }
  if fc = true ∧ cfg.finalSteps ≤ s.centering then
    .ok (.brk, { q with s := { s with maxReached := decide (cfg.maxIter - 1 ≤ (i : Int)) } })
  else do
    let f ← Iteration.factorize v p q.x
    let s ← SolveLoop.rescale v.sqrt cfg
      { c with bNorm := norm v.sqrt p.N p.b, aqcNorm := norm v.sqrt p.N f.r.AQc } i s
    match f.solver with
    | none =>
      let s := { s with trace := .factor i false :: s.trace }
      if i = 0 ∧ cfg.mode = 1 then
        .ok (.next, ⟨{ s with aborted := true, trace := .reset i :: s.trace }, ⟨identity q.x.es, f.sys, q.x.mat⟩, q.last⟩)
      else .ok (.fail, { q with s := s })
    | some solver =>
      let s := { s with trace := .factor i true :: s.trace }
      match SolveLoop.chooseMu cfg quadratic c i upd s with
      | none => .ok (.demand, { q with s := s })
      | some s => do
        let bs ← SolveLoop.readVar s.stats.bScale
        let cs ← SolveLoop.readVar s.stats.cScale
        let k := SolveLoop.applyLimits s.k (SolveLoop.kMin v.sqrt cfg) s.kMax
        let a ← advanceAt v { p with bs := bs, cs := cs } cfg i k q.x f.sys f.r solver
        let r ← SolveLoop.finish v.sqrt cfg quadratic
          { c with norm := fun _ => a.1.norm, cx := fun _ => a.1.cx, bY := fun _ => a.1.bY } i fc upd s
        .ok (r.1, ⟨r.2, a.2, some a.1⟩)

/-- The loop, `/repo/conex/cone_program.cc` 311; `n` is the number of iterations left. -/
def loop (v : Env R) (p : Iteration.Setup R) (cfg : SolveLoop.Config R) (quadratic : Bool)
    (c : SolveLoop.Oracle R) : Nat → Nat → State R → Outcome (SolveLoop.Ctl × State R)
  | 0, _, q => .ok (.brk, q)
  | n + 1, i, q => do
    let r ← body v p cfg quadratic c i q
    match r.1 with
    | .next => loop v p cfg quadratic c n (i + 1) r.2
    | d => .ok (d, r.2)

/-- The vector in the caller's array, `/repo/conex/cone_program.cc` 486, 518-521; undefined if it was copied from an
uninitialised `y`. -/
def array (out : SolveLoop.Output R) (last : Option (Iteration.Step R)) : Option (Nat → R) :=
  match out, last with
  | .raw _, some st => some st.y
  | .scaled _ k c, some st => some fun u => st.y u / k / c
  | _, _ => none

/-- The preparation of dual variables, `/repo/conex/cone_program.cc` 499-516, for the last barrier parameter `k`; `t` is
the step size of the last iteration.  The answer of `Factor` is ignored; if it is no, the solver works with a matrix
that was overwritten in part, and what becomes of the constraints is not specified (`none`). -/
def prepareDuals (v : Env R) (p : Iteration.Setup R) (k t : R) (x : Iteration.State R) :
    Outcome (Option (List (Entry R))) := do
  let f ← Iteration.factorize v p x
  match f.solver with
  | none => .ok none
  | some solver => do
    let y ← solver.solve p.qr p.N fun u => k * p.b u * p.bs - 1 * f.r.AW u
    let es ← Dual.prepareDual v.sqrt v.exp t p.N y x.es
    .ok (some es)

/-- The step size of the last iteration; one before the first (`/repo/conex/newton_step.h` 30). -/
def lastSize (last : Option (Iteration.Step R)) : R :=
  match last with
  | none => 1
  | some st => SolveLoop.stepSize st.norm

/-- The constraints after the loop, whose dual variables are prepared if the options say so. -/
def after (v : Env R) (p : Iteration.Setup R) (cfg : SolveLoop.Config R) (q : State R) :
    Outcome (Option (List (Entry R))) :=
  if cfg.prepareDual then do
    let bs ← SolveLoop.readVar q.s.stats.bScale
    prepareDuals v { p with bs := bs } q.s.k (lastSize q.last) q.x
  else .ok (some q.x.es)

/-- What a solve returns, together with the values of the last iteration and the constraints afterwards; these are
missing if the preparation of dual variables does not specify them. -/
structure Result (R : Type) where
  res : SolveLoop.Result R
  array : Option (Nat → R)
  last : Option (Iteration.Step R)
  es : Option (List (Entry R))

/-- `Solve` on the program state `p`, `/repo/conex/cone_program.cc` 235-533, and `Initialize` (78-112).  The solver of
an initialised program was made from the same variables.  A warm start of a program that was never solved works on
memory that was never written. -/
def solveAt (v : Env R) (l : Linear R) (P : Program R) (p : SolveLoop.Prog R) (cfg : SolveLoop.Config R)
    (c : SolveLoop.Oracle R) : Outcome (Result R) :=
  if ¬ (P.quadratic = false ∨ (cfg.lineSearch = true ∧ cfg.rescaling = false)) then
    .ok ⟨⟨true, p, .untouched, [], none⟩, none, none, some P.es⟩
  else
    let p := SolveLoop.clearStatus p
    if P.es.length = 0 then .ok ⟨⟨false, p, .infinite, [], none⟩, none, none, some P.es⟩
    else if p.initialized = false ∧ cfg.mode ≠ 0 then .ub
    else do
      let kkt ← Sup.kktInit (P.es.map Entry.vars) P.duals
      let p := SolveLoop.initProgram p cfg
      match p.stats with
      | none => .ub
      | some stats => do
        let setup : Iteration.Setup R := ⟨P.N, P.b, 1, 1, kkt, l.useQr, l.refine, l.llt, l.qr⟩
        let r ← loop v setup cfg P.quadratic c cfg.maxIter.toNat 0
          ⟨SolveLoop.start cfg stats, ⟨if cfg.mode = 0 then identity P.es else P.es, P.sys, l.mat⟩, none⟩
        match r.1 with
        | .fail => .ok ⟨⟨false, { p with stats := some r.2.s.stats }, .untouched, r.2.s.trace, none⟩, none, r.2.last,
          some r.2.x.es⟩
        | .demand => .ok ⟨⟨true, { p with stats := some r.2.s.stats }, .untouched, r.2.s.trace, none⟩, none, r.2.last,
          some r.2.x.es⟩
        | _ => do
          let res ← SolveLoop.post cfg p r.2.s
          let es ← after v setup cfg r.2
          .ok ⟨res, array res.out r.2.last, r.2.last, es⟩

/-- `Solve` on a program that was not solved before. -/
def solve (v : Env R) (l : Linear R) (P : Program R) (cfg : SolveLoop.Config R) (status : SolveLoop.Status)
    (c : SolveLoop.Oracle R) : Outcome (Result R) :=
  solveAt v l P ⟨P.quadratic, P.es.length, false, none, status⟩ cfg c

end Verif.Whole
