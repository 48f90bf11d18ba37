import Verif.Model.Equality
import Verif.Model.HermitianLmi
import Verif.Model.LinearConstraint
import Verif.Model.Lmi
import Verif.Model.QuadCone

/-!
# Dual variables

Model of the preparation of dual variables at the end of `Solve` (`/repo/conex/cone_program.cc`
499-516), with the program level `PrepareStep` (`/repo/conex/cone_program.h` 59-90, without its norms,
which nobody reads here), and of reading them (`/repo/conex/constraint.h` 147-155,
`/repo/conex/cone_program.h` 118-145, `/repo/interfaces/conex.cc` 114-127).
-/

namespace Verif.Dual

open Schur

variable {R : Type} [Field R] [LinearOrder R]

/-- A constraint with its workspace.  The template `HermitianPsdConstraint` has a specialised
`PrepareStep` for octonions, which is a constructor of its own. -/
inductive Item (R : Type) where
  | linear (o : Linear.Con R) (w : Linear.Ws R)
  | lmi (n : Nat) (o : Lmi.Con n R) (w : Lmi.Ws n R)
  | hermitian (d n : Nat) (hd : NeZero d) (o : HermLmi.Con d n R) (w : HermLmi.Ws d n R)
  | octonion (n : Nat) (o : HermLmi.Con 8 n R) (w : HermLmi.Ws 8 n R)
  | soc (o : Soc.Con R) (w : Soc.Ws R)
  | quad (o : QuadCone.Con R) (w : QuadCone.Ws R)
  | equality (o : Equality.Con R)
  | cost (n : Nat) (Q : Nat → Nat → R)

/-- A constraint and its unknowns (`cliques`, `/repo/conex/constraint_manager.h` 108-111). -/
structure Entry (R : Type) where
  vars : List Nat
  item : Item R

/-- `ConstructSchurComplementSystem` with `initialize`, as in `Assemble`. -/
def Item.schur (sqrt : R → R) (x : Item R) (s : Sys R) : Outcome (Sys R) :=
  match x with
  | .linear o w => Linear.schur o w.W true s
  | .lmi _ o w => Lmi.schur o w.W true s
  | .hermitian _ _ _ o w => HermLmi.schur o w.W true s
  | .octonion _ o w => HermLmi.schur o w.W true s
  | .soc o w => Soc.schur sqrt o w.W true s
  | .quad o w => QuadCone.schur o w.W true s
  | .equality o => Equality.schur o true s
  | .cost n Q => Equality.costSchur n Q true s

/-- `PrepareStep` with `affine = true`, `e_weight = 0` and `c_weight = 0`, for a `y` with `ny` rows; the
step size `t` is the one of the last iteration.  The two second-order cones, octonions and equations do
not look at `affine`. -/
def Item.prepareDual (sqrt exp : R → R) (t : R) (ny : Nat) (y : Nat → R) (x : Item R) :
    Outcome (Item R) :=
  match x with
  | .linear o w => do
    let q ← Linear.prepareStep exp o ⟨true, 0, 0, t⟩ ny y w
    .ok (.linear o q.1)
  | .lmi n o w => do
    let w ← Lmi.prepareAffine o 0 0 ny y w
    .ok (.lmi n o w)
  | .hermitian d n hd o w => do
    let w ← HermLmi.prepareAffine o 0 0 ny y w
    .ok (.hermitian d n hd o w)
  | .octonion n o w => do
    let q ← HermLmi.prepareStepOct o 0 ny y w
    .ok (.octonion n o q.1)
  | .soc o w => do
    let q ← Soc.prepareStep sqrt o 0 ny y w
    .ok (.soc o q.1)
  | .quad o w => do
    let q ← QuadCone.prepareStep sqrt o 0 ny y w
    .ok (.quad o q.1)
  | .equality o => do
    let q ← Equality.prepareStep o ny y
    .ok (.equality q.1)
  | .cost n Q => .ok (.cost n Q)

/-- `Vars`, `/repo/conex/cone_program.h` 59-67, for a vector with `N` entries. -/
def gather (N : Nat) (y : Nat → R) (vars : List Nat) : Outcome (Nat → R) :=
  if ∃ v ∈ vars, N ≤ v then .ub else .ok fun j => y (vars.getD j 0)

/-- The loop of the program level `PrepareStep`, `/repo/conex/cone_program.h` 77-89, in the call at
`/repo/conex/cone_program.cc` 514: `y` is the solution `y2` of line 507. -/
def prepareDual (sqrt exp : R → R) (t : R) (N : Nat) (y : Nat → R) :
    List (Entry R) → Outcome (List (Entry R))
  | [] => .ok []
  | e :: l => do
    let z ← gather N y e.vars
    let x ← e.item.prepareDual sqrt exp t e.vars.length z
    let l ← prepareDual sqrt exp t N y l
    .ok (⟨e.vars, x⟩ :: l)

/-- A matrix with `n` rows and columns in Eigen's order, by columns. -/
def colMajor (n : Nat) (M : Fin n → Fin n → R) : List (Option R) :=
  (List.finRange n).flatMap fun c => (List.finRange n).map fun r => some (M r c)

/-- `do_get_dual_variable`, `/repo/conex/constraint.h` 147-155: a copy of the memory behind
`workspace()->W`; `none` is a number that was never written.  For the second-order cones this is the
dummy of `/repo/conex/workspace_soc.h` 43-46; equations and costs have an empty map. -/
def Item.dual : Item R → Outcome (List (Option R))
  | .linear o w => .ok ((List.range o.n).map fun i => some (w.W i))
  | .lmi n _ w => .ok (colMajor n w.W)
  | .hermitian _ n _ _ w =>
    match w.dual with
    | .live => .ok (colMajor n (w.W 0))
    | .memory => .ok (List.replicate (n * n) none)
    | .freed => .ub
  | .octonion n _ w =>
    match w.dual with
    | .live => .ok (colMajor n (w.W 0))
    | .memory => .ok (List.replicate (n * n) none)
    | .freed => .ub
  | .soc o _ => .ok (List.replicate (o.n + 1) none)
  | .quad o _ => .ok (List.replicate (o.n + 1) none)
  | .equality _ => .ok []
  | .cost _ _ => .ok []

/-- `do_dual_variable_size`, `/repo/conex/constraint.h` 153-155. -/
def Item.dualSize : Item R → Nat
  | .linear o _ => o.n
  | .lmi n _ _ => n * n
  | .hermitian _ n _ _ _ => n * n
  | .octonion n _ _ => n * n
  | .soc o _ => o.n + 1
  | .quad o _ => o.n + 1
  | .equality _ => 0
  | .cost _ _ => 0

/-- The loop over the constraints in `GetDualVariable` and `GetDualVariableSize`,
`/repo/conex/cone_program.h` 120-145. -/
def find (i cnt : Int) : List (Entry R) → Option (Item R)
  | [] => none
  | e :: l => if cnt = i then some e.item else find i (cnt + 1) l

/-- `GetDualVariableSize`, `/repo/conex/cone_program.h` 136-145: the failed demand returns 1. -/
def getDualSize (es : List (Entry R)) (i : Int) : Nat :=
  match find i 0 es with
  | some x => x.dualSize
  | none => 1

/-- `CONEX_GetDualVariable` for an array with `xr * xc` entries, `/repo/interfaces/conex.cc` 114-122: what
is written to the array; `none` if nothing is.  `scale` is the last `sqrt_inv_mu` times `b_scaling`, not
zero, and `infeasible` the flag `primal_infeasible` (`/repo/conex/cone_program.h` 126-129).  An array of
another size violates the assertion. -/
def getDual (es : List (Entry R)) (infeasible : Bool) (scale : R) (i xr xc : Int) :
    Outcome (Option (List (Option R))) :=
  if (getDualSize es i : Int) ≠ xr * xc then .ub
  else match find i 0 es with
    | none => .ok none
    | some x => do
      let l ← x.dual
      .ok (some (if infeasible then l else l.map fun v => v.map (· / scale)))

end Verif.Dual
