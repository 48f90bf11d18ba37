import Verif.Model.KktError
import Verif.Model.KktSolve
import Verif.Model.NewtonStep
import Verif.Model.Solve

/-!
# One iteration of the main loop

Model of the numerical part of an iteration of `Solve`, `/repo/conex/cone_program.cc` 338-341, 360, 408-435,
441-452, put together from the models of its parts: assembly of the linear system, factorization, solution
for a given barrier parameter, `PrepareStep` and `TakeStep`.  The control part (the barrier parameter, the
tests for leaving the loop) is `Model/Solve`; warm starts and rescaling, which change the constraints and the
scalings in the first iteration only, are left out.
-/

namespace Verif.Iteration

open Dual

variable {R : Type} [Field R] [LinearOrder R]

/-- What does not change between iterations: the number of unknowns, the linear cost (zero for multipliers of
equations, `/repo/conex/cone_program.cc` 242, 294-296), the scalings, the solver with its options, and the
functions of Eigen. -/
structure Setup (R : Type) where
  N : Nat
  b : Nat → R
  bs : R
  cs : R
  kkt : Sup.Kkt
  useQr : Bool
  refine : Nat
  llt : Nat → (Nat → Nat → R) → Option (Nat → Nat → R)
  qr : Nat → (Nat → Nat → R) → (Nat → R) → Nat → R

/-- What changes: the constraints with their workspaces, the systems of the constraints
(`submatrix_data_`, `/repo/conex/supernodal_assembler.h` 71-77), and the supernodal matrix.  The dense copy that
`Factor` keeps for refinement is not listed: every call overwrites it before it is used. -/
structure State (R : Type) where
  es : List (Entry R)
  sys : List (Schur.Sys R)
  mat : Sup.Store R

/-- The values of an iteration. -/
structure Step (R : Type) where
  y : Nat → R
  norm : R
  normsqrd : R
  bY : R
  cx : R
  fact : Option (Sup.Fact R)

/-- `ConstructSchurComplementSystem` of all constraints, called in `Assemble`
(`/repo/conex/kkt_solver.cc` 133-149, `/repo/conex/supernodal_assembler.h` 113-115).  The code goes through
the constraints in elimination order and copies each system before it computes the next one; the systems do
not depend on each other. -/
def schurAll (sqrt : R → R) : List (Entry R) → List (Schur.Sys R) → Outcome (List (Schur.Sys R))
  | [], _ => .ok []
  | _ :: _, [] => .ub
  | e :: es, s :: sys => do
    let s ← e.item.schur sqrt s
    let sys ← schurAll sqrt es sys
    .ok (s :: sys)

/-- The system of constraint `i`. -/
def sysAt (sys : List (Schur.Sys R)) (i : Nat) : Schur.Sys R :=
  sys.getD i ⟨0, fun _ _ => 0, fun _ => 0, fun _ => 0, 0, 0⟩

/-- The right-hand side, `/repo/conex/cone_program.cc` 408-410. -/
def rhs (p : Setup R) (k : R) (r : Sup.Resid R) (u : Nat) : R :=
  k * (p.b u * p.bs + r.AQc u * p.cs) - 2 * r.AW u

/-- What assembly and factorization leave for the rest of the iteration; there is no solver if the factorization
failed. -/
structure Factored (R : Type) where
  sys : List (Schur.Sys R)
  r : Sup.Resid R
  solver : Option (Sup.Solver R)

/-- The part of an iteration that does not depend on the barrier parameter: the systems of the constraints,
assembly, the right-hand side and the factorization, `/repo/conex/cone_program.cc` 338-341, 360. -/
def factorize (v : Env R) (p : Setup R) (x : State R) : Outcome (Factored R) := do
  let sys ← schurAll v.sqrt x.es x.sys
  let wm ← Sup.assemble p.kkt (fun i => (sysAt sys i).G) x.mat
  let r ← Sup.assembleResiduals p.N (x.es.map Entry.vars) (fun i => KktError.resid (sysAt sys i))
  let f ← (Sup.Solver.mk p.kkt wm.1 wm.2 p.useQr p.refine none none).factor p.llt
  .ok ⟨sys, r, f⟩

/-- The rest of the iteration for the barrier parameter `k`: direction, step, and the values that are computed on
the way, `/repo/conex/cone_program.cc` 408-435, 441-452. -/
def advance (v : Env R) (p : Setup R) (k : R) (x : State R) (sys : List (Schur.Sys R)) (r : Sup.Resid R)
    (solver : Sup.Solver R) : Outcome (Step R × State R) := do
  let y ← solver.solveInPlace p.qr p.N (rhs p k r)
  let q ← Dual.prepareStep v (k * p.cs) p.N y x.es
  let es ← Dual.takeStep v (SolveLoop.stepSize q.2.1) q.1
  .ok
    (⟨y, q.2.1, q.2.2, KktError.byValue p.N p.b y k p.cs, KktError.cxValue p.N r y k p.bs p.cs, solver.fact⟩,
     ⟨es, sys, solver.mat⟩)

/-- An iteration with the barrier parameter `k`; `none` if the factorization failed. -/
def iterate (v : Env R) (p : Setup R) (k : R) (x : State R) : Outcome (Option (Step R × State R)) := do
  let f ← factorize v p x
  match f.solver with
  | none => .ok none
  | some solver => do
    let q ← advance v p k x f.sys f.r solver
    .ok (some q)

end Verif.Iteration
