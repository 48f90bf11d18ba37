import Verif.Model.Outcome

/-!
# Model of `ConstraintManager` (conex/constraint_manager.h)

`int` is modelled by `Int` for caller-supplied variable lists (a negative index is undefined
behaviour, because `y(xi)` of an Eigen vector is not checked in a release build), and by `Nat` for
counts. The `Container` objects are abstracted to a payload `κ` together with the number of
variables passed to `SupernodalAssembler::SetNumberOfVariables` (cone_program.h 47-57).
-/

namespace Verif.CM

/-- The counting loop of `IsUnique` (constraint_manager.h 14-22). `y` is the counter vector. -/
def isUniqueLoop (N : Nat) (y : Nat → Nat) : List Int → Outcome Bool
  | [] => .ok true
  | x :: xs =>
    if (N : Int) ≤ x then .ok false          -- lines 15-17
    else if x < 0 then .ub                   -- line 18: y(xi) with a negative index
    else
      let y' : Nat → Nat := fun k => if k = x.toNat then y k + 1 else y k   -- line 18
      if y' x.toNat > 1 then .ok false       -- lines 19-21
      else isUniqueLoop N y' xs

/-- `IsUnique` (constraint_manager.h 11-24). `N` is a `Nat`: a negative `N` is an Eigen
precondition violation and is not reachable through `SetNumberOfVariables` with a valid argument. -/
def isUnique (N : Nat) (x : List Int) : Outcome Bool := isUniqueLoop N (fun _ => 0) x

/-- `ConstraintManager` (constraint_manager.h 26-105). `eqs` keeps the payload of each container
and the `num_vars` argument of its constructor. Clique entries are stored as `Nat`: only lists that
passed `IsUnique` are stored, and these are non-negative. -/
structure Manager (κ : Type) where
  eqs : List (κ × Nat)
  cliques : List (List Nat)
  dualVars : List (List Nat)
  maxVars : Nat
  dualStart : Nat
  deriving DecidableEq, Repr

variable {κ : Type}

/-- Default constructor (constraint_manager.h 33, 103-104). -/
def Manager.empty : Manager κ := ⟨[], [], [], 0, 0⟩

/-- `SetNumberOfVariables` (constraint_manager.h 35-38). -/
def Manager.setNumberOfVariables (s : Manager κ) (N : Nat) : Manager κ :=
  { s with maxVars := N, dualStart := N }

/-- `SizeOfKKTSystem` (constraint_manager.h 42-48). -/
def Manager.sizeOfKKTSystem (s : Manager κ) : Nat :=
  s.maxVars + s.dualVars.foldl (fun acc dv => acc + dv.length) 0

/-- `AddConstraint(x, variables)` (constraint_manager.h 60-69). The Boolean is `true` when
`CONEX_SUCCESS` is returned. -/
def Manager.addConstraintOn (s : Manager κ) (x : κ) (vars : List Int) :
    Outcome (Bool × Manager κ) :=
  (isUnique s.maxVars vars).bind fun u =>
    if u then
      .ok (true, { s with
        eqs := s.eqs ++ [(x, vars.length)]
        cliques := s.cliques ++ [vars.map Int.toNat]
        dualVars := s.dualVars ++ [[]] })
    else .ok (false, s)

/-- `AddConstraint(x)` (constraint_manager.h 50-58): all variables; the result of the inner call is
ignored and success is returned. -/
def Manager.addConstraint (s : Manager κ) (x : κ) : Outcome (Bool × Manager κ) :=
  (s.addConstraintOn x ((List.range s.maxVars).map Int.ofNat)).bind fun r => .ok (true, r.2)

/-- `AddEqualityConstraint(x, variables)` (constraint_manager.h 71-86); `m` is
`x.SizeOfDualVariable()`, the number of rows of the equation. -/
def Manager.addEqualityOn (s : Manager κ) (x : κ) (m : Nat) (vars : List Int) :
    Outcome (Bool × Manager κ) :=
  (isUnique s.maxVars vars).bind fun u =>
    if u then
      let duals := (List.range m).map (fun i => i + s.dualStart)   -- lines 80-83
      .ok (true, { s with
        eqs := s.eqs ++ [(x, m + vars.length)]
        cliques := s.cliques ++ [vars.map Int.toNat ++ duals]
        dualVars := s.dualVars ++ [duals]
        dualStart := s.dualStart + m })
    else .ok (false, s)

/-- `AddEqualityConstraint(x)` (constraint_manager.h 88-95). -/
def Manager.addEquality (s : Manager κ) (x : κ) (m : Nat) : Outcome (Bool × Manager κ) :=
  (s.addEqualityOn x m ((List.range s.maxVars).map Int.ofNat)).bind fun r => .ok (true, r.2)

/-- The calls that add something to a manager. -/
inductive Call (κ : Type) where
  | add (x : κ)
  | addOn (x : κ) (vars : List Int)
  | addEq (x : κ) (m : Nat)
  | addEqOn (x : κ) (m : Nat) (vars : List Int)
  deriving DecidableEq, Repr

/-- Dispatch of one call. -/
def Manager.step (s : Manager κ) : Call κ → Outcome (Bool × Manager κ)
  | .add x => s.addConstraint x
  | .addOn x vars => s.addConstraintOn x vars
  | .addEq x m => s.addEquality x m
  | .addEqOn x m vars => s.addEqualityOn x m vars

/-- A sequence of calls; the returned flags are ignored, as a careless caller would. -/
def Manager.run (s : Manager κ) : List (Call κ) → Outcome (Manager κ)
  | [] => .ok s
  | c :: cs => (s.step c).bind fun r => r.2.run cs

end Verif.CM
