import Verif.Model.WholeSolve

/-!
# Several solves of one program

A program can be solved repeatedly, `/repo/conex/cone_program.cc` 235-533: the constraints keep the scaling points of
the last solve, and the statistics block its scalings, on which a solve with `initialization_mode` 1 builds.  The
linear cost may be changed in between.
-/

namespace Verif.Whole

open Dual

variable {R : Type} [Field R] [LinearOrder R]

/-- A call of `Solve`: linear cost, options, the answers from outside, and what the systems of the constraints and the
supernodal matrix hold, which every iteration overwrites. -/
structure Request (R : Type) where
  cost : Nat → R
  cfg : SolveLoop.Config R
  oracle : SolveLoop.Oracle R
  sys : List (Schur.Sys R)
  mat : Sup.Store R

/-- Successive calls of `Solve` on one program.  There are no further calls to be modelled if the constraints after a
call are not specified. -/
def session (v : Env R) (l : Linear R) (P : Program R) (p : SolveLoop.Prog R) :
    List (Request R) → Outcome (List (Result R))
  | [] => .ok []
  | q :: qs => do
    let r ← solveAt v { l with mat := q.mat } { P with cost := q.cost, sys := q.sys } p q.cfg q.oracle
    match r.es with
    | none => .ub
    | some es => do
      let rs ← session v l { P with es := es } r.res.prog qs
      .ok (r :: rs)

/-- A program that was not solved before. -/
def Program.fresh (P : Program R) (status : SolveLoop.Status) : SolveLoop.Prog R :=
  ⟨P.quadratic, P.es.length, false, none, status⟩

end Verif.Whole
