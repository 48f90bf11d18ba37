import Verif.Model.DualVariables

/-!
# Newton steps

Model of the program level `PrepareStep` (`/repo/conex/cone_program.h` 69-90) in the main loop of
`Solve` (`/repo/conex/cone_program.cc` 415-422) and of `TakeStep` (92-97; cone_program.cc 435), with the dispatch to the constraints
(`/repo/conex/constraint.h` 64-67, 96-98), and of `Rank` (`/repo/conex/cone_program.cc` 59-66).
-/

namespace Verif.Dual

open Schur

variable {R : Type} [Field R] [LinearOrder R]

/-- The functions outside of the program: square root, exponential, the eigenvalues of tridiagonal
matrices, the solution of linear systems by factorization, and the random start vectors of
`/repo/conex/hermitian_psd.cc` 59. -/
structure Env (R : Type) where
  sqrt : R → R
  exp : R → R
  tri : List R → List R → List R
  solve : (n : Nat) → Lmi.Mat n R → Lmi.Mat n R → Lmi.Mat n R
  start : (d n : Nat) → HermLmi.Col d n R

/-- `PrepareStep` of a constraint with `affine = false`, `e_weight = 1` and `c_weight = c`, for a `y`
with `ny` rows: the constraint, `norminfd` (`none` is NaN) and `normsqrd`.  The step size is not read. -/
def Item.prepareStep (v : Env R) (c : R) (ny : Nat) (y : Nat → R) (x : Item R) :
    Outcome (Item R × Option R × R) :=
  match x with
  | .linear o w => do
    let q ← Linear.prepareStep v.exp o ⟨false, c, 1, 1⟩ ny y w
    match q.2 with
    | some p => .ok (.linear o q.1, some p.1, p.2)
    | none => .ub
  | .lmi n o w => do
    let q ← Lmi.prepareStep v.sqrt v.tri o c 1 ny y w
    .ok (.lmi n o q.1, q.2)
  | .hermitian d n hd o w => do
    let q ← HermLmi.prepareStep v.sqrt v.tri (v.start d n) o c 1 ny y w
    .ok (.hermitian d n hd o q.1, q.2)
  | .octonion n o w => do
    let q ← HermLmi.prepareStepOct o c ny y w
    .ok (.octonion n o q.1, some q.2.1, q.2.2)
  | .soc o w => do
    let q ← Soc.prepareStep v.sqrt o c ny y w
    .ok (.soc o q.1, some q.2.1, q.2.2)
  | .quad o w => do
    let q ← QuadCone.prepareStep v.sqrt o c ny y w
    .ok (.quad o q.1, some q.2.1, q.2.2)
  | .equality o => do
    let q ← Equality.prepareStep o ny y
    .ok (.equality q.1, some q.2.1, q.2.2)
  | .cost n Q => .ok (.cost n Q, some 0, 0)

/-- The comparison `info_i.norminfd > info->norminfd`, `/repo/conex/cone_program.h` 84-86: a NaN does
not compare. -/
def updateNorm (a : R) : Option R → R
  | some b => if a < b then b else a
  | none => a

/-- The loop of `PrepareStep`, `/repo/conex/cone_program.h` 77-89; `a` and `b` are `info->norminfd` and
`info->normsqrd` before the loop. -/
def prepareLoop (v : Env R) (c : R) (N : Nat) (y : Nat → R) :
    R → R → List (Entry R) → Outcome (List (Entry R) × R × R)
  | a, b, [] => .ok ([], a, b)
  | a, b, e :: l => do
    let z ← gather N y e.vars
    let q ← e.item.prepareStep v c e.vars.length z
    let r ← prepareLoop v c N y (updateNorm a q.2.1) (b + q.2.2) l
    .ok (⟨e.vars, q.1⟩ :: r.1, r.2)

/-- `PrepareStep`, `/repo/conex/cone_program.h` 69-90. -/
def prepareStep (v : Env R) (c : R) (N : Nat) (y : Nat → R) (es : List (Entry R)) :
    Outcome (List (Entry R) × R × R) :=
  prepareLoop v c N y (-1) 0 es

/-- `TakeStep` of a constraint with `affine = false` and `e_weight = 1`; `c_weight` is not read. -/
def Item.takeStep (v : Env R) (size : R) (x : Item R) : Outcome (Item R) :=
  match x with
  | .linear o w => .ok (.linear o (Linear.takeStep v.exp ⟨false, 0, 1, size⟩ w))
  | .lmi n o w => .ok (.lmi n o (Lmi.takeStep (v.solve n) size 1 w))
  | .hermitian d n hd o w => .ok (.hermitian d n hd o (HermLmi.takeStep size 1 w))
  | .octonion n o w => .ok (.octonion n o (HermLmi.takeStepOct size w))
  | .soc o w => do
    let w ← Soc.takeStep v.sqrt v.exp o size w
    .ok (.soc o w)
  | .quad o w => .ok (.quad o (QuadCone.takeStep v.sqrt v.exp o size w))
  | .equality o => .ok (.equality o)
  | .cost n Q => .ok (.cost n Q)

/-- `TakeStep` of all constraints, `/repo/conex/cone_program.h` 92-97.  The loop is over
`constraints_`, which holds the constraints of `eqs` in the same order (`/repo/conex/cone_program.h`
191-218), without the equations, whose `TakeStep` does nothing. -/
def takeStep (v : Env R) (size : R) : List (Entry R) → Outcome (List (Entry R))
  | [] => .ok []
  | e :: l => do
    let x ← e.item.takeStep v size
    let l ← takeStep v size l
    .ok (⟨e.vars, x⟩ :: l)

/-- `Rank` of a constraint: `/repo/conex/linear_constraint.h` 51, `/repo/conex/psd_constraint.h` 42,
`/repo/conex/hermitian_psd.h` 57, `/repo/conex/soc_constraint.h` 24,
`/repo/conex/quadratic_cone_constraint.h` 38, `/repo/conex/equality_constraint.h` 30,
`/repo/conex/quadratic_cost.cc` 25. -/
def Item.rank : Item R → Nat
  | .linear o _ => o.n
  | .lmi n _ _ => n
  | .hermitian _ n _ _ _ => n
  | .octonion n _ _ => n
  | .soc _ _ => 2
  | .quad _ _ => 2
  | .equality _ => 0
  | .cost _ _ => 0

/-- `Rank` of all constraints, `/repo/conex/cone_program.cc` 59-66. -/
def rank (es : List (Entry R)) : Nat := es.foldl (fun r e => r + e.item.rank) 0

end Verif.Dual
