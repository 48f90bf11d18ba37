import Verif.Model.Solve

/-!
# What a run of the optimisation loop did

Observations on the list of events of a run (most recent event first), used to state the properties
of `Solve` without referring to its local variables.
-/

namespace Verif.SolveLoop.Spec

open Verif.SolveLoop

variable {R : Type}

/-- Number of factorizations. -/
def factorizations : List (Ev R) → Nat
  | [] => 0
  | .factor _ _ :: t => factorizations t + 1
  | .dualFactor :: t => factorizations t + 1
  | _ :: t => factorizations t

/-- Number of steps taken. -/
def steps : List (Ev R) → Nat
  | [] => 0
  | .step _ _ :: t => steps t + 1
  | _ :: t => steps t

/-- Number of iterations, outside the initial centering phase, whose barrier parameter was not
updated. -/
def centeringSteps : List (Ev R) → Nat
  | [] => 0
  | .direction _ false false _ :: t => centeringSteps t + 1
  | _ :: t => centeringSteps t

/-- The last iteration that computed a direction. -/
def lastCompleted : List (Ev R) → Option Nat
  | [] => none
  | .direction i _ _ _ :: _ => some i
  | _ :: t => lastCompleted t

/-- The barrier parameter (as `1/√μ`) of the last iteration that computed a direction. -/
def lastParameter : List (Ev R) → Option R
  | [] => none
  | .direction _ _ _ k :: _ => some k
  | _ :: t => lastParameter t

/-- The last factorization of the loop and whether it succeeded. -/
def lastFactor : List (Ev R) → Option (Nat × Bool)
  | [] => none
  | .factor i ok :: _ => some (i, ok)
  | _ :: t => lastFactor t

/-- `sqrt` is right at `x`. -/
def SqrtAt [Field R] [LinearOrder R] (sqrt : R → R) (x : R) : Prop :=
  0 ≤ sqrt x ∧ sqrt x * sqrt x = x

end Verif.SolveLoop.Spec
