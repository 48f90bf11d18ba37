import Verif.Model.ConstraintManager
import Verif.Model.Equality
import Mathlib.Algebra.Order.Field.Basic

/-!
# The C interface: building a program

Model of `Program` (`/repo/conex/cone_program.h` 99-240, `/repo/conex/cone_program.cc` 226-233,
547-571) and of the construction calls of `/repo/interfaces/conex.cc`.

Constraints are represented by their kind and dimensions only; their numbers are the subject of other
files.  Dimensions passed by the caller are natural numbers where the C code does not check them
(negative ones violate preconditions of Eigen), and integers where it does.  Statuses are the `int`
returned: 0 is `CONEX_SUCCESS`, 1 is `CONEX_FAILURE`.
-/

namespace Verif.CApi

/-- The kinds of constraints with their dimensions. -/
inductive Con where
  /-- `HermitianPsdConstraint<T>(order)` over the algebra of the given dimension -/
  | hermitian (order dim : Nat)
  /-- `DenseLMIConstraint` of `m` matrices of the given order -/
  | denseLmi (order m : Nat)
  /-- `LinearConstraint` -/
  | linear (rows cols : Nat)
  /-- `EqualityConstraints` -/
  | equality (rows cols : Nat)
  /-- `SOCConstraint(n)` -/
  | soc (n : Nat)
  /-- `QuadraticFunction` with a matrix of the given order -/
  | cost (order : Nat)
  deriving DecidableEq, Repr

/-- `Program`, `/repo/conex/cone_program.h` 220-234: `listed` is `constraints_.size()`, `workspaces`
is `workspaces.size()`, `linearCost` is `linear_cost_`. -/
structure Program (R : Type) where
  mgr : CM.Manager Con
  listed : Nat
  workspaces : Nat
  initialized : Bool
  quadratic : Bool
  linearCost : List R
  deriving DecidableEq, Repr

variable {R : Type}

/-- `NumberOfConstraints`, `/repo/conex/cone_program.h` 220. -/
def Program.count (p : Program R) : Nat := p.mgr.eqs.length

/-- `SetNumberOfVariables`, `/repo/conex/cone_program.h` 111-114. -/
def Program.setNumberOfVariables [Zero R] (p : Program R) (m : Nat) : Program R :=
  { p with mgr := p.mgr.setNumberOfVariables m, linearCost := List.replicate m 0 }

/-- `Program(m)`, `/repo/conex/cone_program.h` 101-104. -/
def Program.new [Zero R] (m : Nat) : Program R :=
  Program.setNumberOfVariables ⟨.empty, 0, 0, false, false, []⟩ m

/-- The `bool` (0 or 1) that stands for the status of the constraint manager. -/
def status (success : Bool) : Int := if success then 0 else 1

/-- `Program::AddConstraint(d)` for a constraint that is not an equality constraint,
`/repo/conex/cone_program.h` 191-199. -/
def Program.add (p : Program R) (c : Con) : Outcome (Int × Program R) := do
  let r ← p.mgr.addConstraint c
  .ok (status r.1, { p with mgr := r.2, listed := if r.1 then p.listed + 1 else p.listed })

/-- `Program::AddConstraint(d, variables)` for such a constraint, `/repo/conex/cone_program.h`
205-213. -/
def Program.addOn (p : Program R) (c : Con) (vars : List Int) : Outcome (Int × Program R) := do
  let r ← p.mgr.addConstraintOn c vars
  .ok (status r.1, { p with mgr := r.2, listed := if r.1 then p.listed + 1 else p.listed })

/-- `Program::AddConstraint(EqualityConstraints&&)`, `/repo/conex/cone_program.h` 199-202. -/
def Program.addEquality (p : Program R) (rows cols : Nat) : Outcome (Int × Program R) := do
  let r ← p.mgr.addEquality (.equality rows cols) rows
  .ok (status r.1, { p with mgr := r.2 })

/-- `Program::AddQuadraticCost(Q, vars)`, `/repo/conex/cone_program.cc` 554-560, with
`conex::AddQuadraticCost` (`/repo/conex/quadratic_cost.cc` 73-76), which drops the status. -/
def Program.addQuadraticCostOn (p : Program R) (order : Nat) (vars : List Int) :
    Outcome (Int × Program R) := do
  let p := { p with quadratic := true }
  let r ← p.addOn (.cost order) vars
  .ok (0, r.2)

/-- `Program::AddQuadraticCost(Q)`, `/repo/conex/cone_program.cc` 562-570. -/
def Program.addQuadraticCost (p : Program R) (order : Nat) : Outcome (Int × Program R) :=
  if order ≠ p.mgr.maxVars then .ok (1, p)
  else p.addQuadraticCostOn order ((List.range p.mgr.maxVars).map Int.ofNat)

/-- `Program::AddLinearCost`, `/repo/conex/cone_program.cc` 226-231: `true` (that is 1) on success
and 1 (`CONEX_DEMAND`) on failure. -/
def Program.addLinearCost [Add R] (p : Program R) (b : List R) : Int × Program R :=
  if p.mgr.maxVars ≠ b.length then (1, p)
  else (1, { p with linearCost := List.zipWith (· + ·) p.linearCost b })

/-- `ClearLinearCosts`, `/repo/conex/cone_program.cc` 233. -/
def Program.clearLinearCosts [Zero R] (p : Program R) : Program R :=
  { p with linearCost := p.linearCost.map fun _ => 0 }

/-- The part of `Initialize` (`/repo/conex/cone_program.cc` 78-112) and `InitializeWorkspace`
(`/repo/conex/cone_program.h` 174-189) that matters here: two workspaces for each constraint and two
more. -/
def Program.bind (p : Program R) (mode : Int) : Program R :=
  if p.initialized = false ∨ mode = 0 then
    { p with workspaces := 2 * p.count + 2, initialized := true }
  else p

/-- The effect of `Solve(prog, config, y)` on what is modelled here,
`/repo/conex/cone_program.cc` 235-275; `allowed` says that line search is enabled and rescaling is
disabled. -/
def Program.solve (p : Program R) (mode : Int) (allowed : Bool) : Program R :=
  if ¬ (p.quadratic = false ∨ allowed = true) then p
  else if p.count = 0 then p
  else p.bind mode

/-- `Solve(b, prog, config, y)`, `/repo/conex/cone_program.cc` 547-552: the program that is solved,
and that remains.  The status of `AddLinearCost` is dropped. -/
def Program.maximize [Zero R] [Add R] [Neg R] (p : Program R) (b : List R) (mode : Int)
    (allowed : Bool) : Program R :=
  let p := p.clearLinearCosts
  let p := (p.addLinearCost (b.map fun x => -x)).2
  p.solve mode allowed

/-! ### Calls through a handle -/

/-- The result of a call: the status or number returned, the program behind the handle, and what was
written to `*constraint_id` (`none`: nothing). -/
structure Ret (R : Type) where
  value : Int
  prog : Option (Program R)
  id : Option Int
  deriving DecidableEq, Repr

/-- `SAFER_CAST_TO_Program`, `/repo/interfaces/conex.cc` 20-33: `none` is the return of 1.  The handle
is null or points to a program. -/
def saferCast (h : Option (Program R)) : Option (Program R) :=
  match h with
  | none => none
  | some p =>
    if p.initialized then
      if p.count + 2 ≠ p.workspaces then none else some p
    else if p.workspaces ≠ 0 then none
    else some p

/-- The return of 1 by `CONEX_DEMAND`. -/
def refused (h : Option (Program R)) : Outcome (Ret R) := .ok ⟨1, h, none⟩

/-- `CONEX_NewLinearMatrixInequality`, `/repo/interfaces/conex.cc` 287-316; `idPtr` says that
`constraint_id` is not null. -/
def newLmi (h : Option (Program R)) (order dim : Int) (idPtr : Bool) : Outcome (Ret R) :=
  if order < 1 then refused h
  else if idPtr = false then refused h
  else if ¬ (dim = 1 ∨ dim = 2 ∨ dim = 4 ∨ dim = 8) then refused h
  else match saferCast h with
    | none => refused h
    | some p =>
      if dim = 8 ∧ 3 < order then refused h
      else do
        let r ← p.add (.hermitian order.toNat dim.toNat)
        .ok ⟨0, some r.2, some (r.2.count - 1 : Int)⟩

/-- `CONEX_NewLinearInequality`, `/repo/interfaces/conex.cc` 318-329. -/
def newLinear (h : Option (Program R)) (rows : Nat) (idPtr : Bool) : Outcome (Ret R) :=
  if idPtr = false then refused h
  else match saferCast h with
    | none => refused h
    | some p => do
      let r ← p.add (.linear rows p.mgr.maxVars)
      .ok ⟨r.1, some r.2, some (r.2.count - 1 : Int)⟩

/-- `CONEX_NewQuadraticCost`, `/repo/interfaces/conex.cc` 331-341. -/
def newCost (h : Option (Program R)) (idPtr : Bool) : Outcome (Ret R) :=
  if idPtr = false then refused h
  else match saferCast h with
    | none => refused h
    | some p => do
      let r ← p.addQuadraticCost p.mgr.maxVars
      .ok ⟨r.1, some r.2, some (r.2.count - 1 : Int)⟩

/-- `CONEX_NewLorentzConeConstraint`, `/repo/interfaces/conex.cc` 384-397. -/
def newSoc (h : Option (Program R)) (order : Int) (idPtr : Bool) : Outcome (Ret R) :=
  if order < 1 then refused h
  else if idPtr = false then refused h
  else match saferCast h with
    | none => refused h
    | some p => do
      let r ← p.add (.soc order.toNat)
      .ok ⟨0, some r.2, some (r.2.count - 1 : Int)⟩

/-- `CONEX_SetNumberOfVariables`, `/repo/interfaces/conex.cc` 399-407. -/
def setVariables [Zero R] (h : Option (Program R)) (m : Int) : Outcome (Ret R) :=
  if m < 1 then refused h
  else match saferCast h with
    | none => refused h
    | some p =>
      if p.mgr.maxVars ≠ 0 then refused h
      else .ok ⟨0, some (p.setNumberOfVariables m.toNat), none⟩

/-- `CONEX_AddQuadraticCost`, `/repo/interfaces/conex.cc` 343-354, after the choice of the variables
`vars` and the matrix of order `vars.length` by `NonZeroSubMat`. -/
def addCost (h : Option (Program R)) (vars : List Nat) : Outcome (Ret R) :=
  match saferCast h with
  | none => refused h
  | some p => do
    let r ← p.addQuadraticCostOn vars.length (vars.map Int.ofNat)
    .ok ⟨r.1, some r.2, none⟩

/-- Conversion of a `long` to an `int`: modulo `2 ^ 32`. -/
def toInt (x : Int) : Int := (x + 2 ^ 31) % 2 ^ 32 - 2 ^ 31

/-- `CONEX_AddDenseLMIConstraint`, `/repo/interfaces/conex.cc` 137-160; the handle is not checked and
must not be null. -/
def addDenseLmi (p : Program R) (order m : Nat) : Outcome (Ret R) := do
  let id := p.count
  let r ← p.add (.denseLmi order m)
  .ok ⟨id, some r.2, none⟩

/-- `CONEX_AddSparseLMIConstraint`, `/repo/interfaces/conex.cc` 162-188, with `num_vars` equal to the
number of entries of `vars`. -/
def addSparseLmi (p : Program R) (order : Nat) (vars : List Int) : Outcome (Ret R) := do
  let id := p.count
  let r ← p.addOn (.denseLmi order vars.length) (vars.map toInt)
  .ok ⟨id, some r.2, none⟩

/-- `CONEX_AddLinearInequalities`, `/repo/interfaces/conex.cc` 190-215, when the preprocessing
(`Verif.Preprocess`) leaves `ineq` inequalities and `eq` equations in `cols` variables. -/
def addLinearInequalities (p : Program R) (ineq eq cols : Nat) : Outcome (Ret R) := do
  let p ← if 0 < ineq then (do let r ← p.add (.linear ineq cols); .ok r.2) else .ok p
  let p ← if 0 < eq then (do let r ← p.addEquality eq cols; .ok r.2) else .ok p
  .ok ⟨-1, some p, none⟩

/-- `CONEX_AddDenseLinearConstraint`, `/repo/interfaces/conex.cc` 216-229. -/
def addDenseLinear (p : Program R) (rows cols : Nat) : Outcome (Ret R) := do
  let id := p.count
  let r ← p.add (.linear rows cols)
  .ok ⟨id, some r.2, none⟩

end Verif.CApi
