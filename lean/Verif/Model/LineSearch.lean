import Verif.Model.LinearConstraint

/-!
# The line search for the barrier parameter

Model of `FindMinimumMu` and `PerformLineSearch` (`/repo/conex/linear_constraint.cc` 47-103) and of
`ComputeMuFromLineSearch` (`/repo/conex/cone_program.cc` 118-160) after the two linear solves.

The slopes may be zero and the code divides by them, so the bounds are extended numbers with the
comparisons of IEEE arithmetic.  The zero that arises as difference of equal numbers is `+0`.
-/

namespace Verif.LineSearch

open Linear

variable {R : Type} [Field R] [LinearOrder R]

/-- A double: a number, an infinity or NaN. -/
inductive Ext (R : Type) where
  | nan
  | ninf
  | fin (x : R)
  | pinf
  deriving DecidableEq, Repr

/-- `<` of doubles: false if an operand is NaN. -/
def Ext.lt : Ext R → Ext R → Bool
  | .ninf, .fin _ => true
  | .ninf, .pinf => true
  | .fin _, .pinf => true
  | .fin x, .fin y => decide (x < y)
  | _, _ => false

/-- `<=` of doubles. -/
def Ext.le : Ext R → Ext R → Bool
  | .nan, _ => false
  | _, .nan => false
  | x, y => !y.lt x

/-- Division of finite doubles, where a zero divisor is `+0`. -/
def ediv (a b : R) : Ext R :=
  if b = 0 then (if a = 0 then .nan else if 0 < a then .pinf else .ninf) else .fin (a / b)

/-- `LineSearchOutput`, `/repo/conex/newton_step.h` 45-48. -/
structure Interval (R : Type) where
  lower : Ext R
  upper : Ext R
  deriving DecidableEq, Repr

/-- The default values of `LineSearchOutput`; `big` is the largest double. -/
def Interval.default (big : R) : Interval R := ⟨.fin (-big), .fin big⟩

/-- Bounds of one component, `/repo/conex/linear_constraint.cc` 59-66. -/
def component (dmax d0 delta : R) : Interval R :=
  let u := ediv (dmax - d0) delta
  let l := ediv (-dmax - d0) delta
  if u.lt l then ⟨u, l⟩ else ⟨l, u⟩

/-- Lines 68-74; `first` is `i == 0`. -/
def tighten (first : Bool) (out b : Interval R) : Interval R :=
  { upper := if b.upper.lt out.upper || first then b.upper else out.upper
    lower := if out.lower.lt b.lower || first then b.lower else out.lower }

/-- The loop of `FindMinimumMu`, `/repo/conex/linear_constraint.cc` 58-75, after `i` rounds. -/
def findLoop (dmax : R) (d0 delta : Nat → R) (out : Interval R) : Nat → Interval R
  | 0 => out
  | i + 1 => tighten (i == 0) (findLoop dmax d0 delta out i) (component dmax (d0 i) (delta i))

/-- `success` of `FindMinimumMu`, `/repo/conex/linear_constraint.cc` 77-80. -/
def Interval.success (o : Interval R) : Bool := !o.upper.lt o.lower

/-- Direction at weight `k`, `/repo/conex/linear_constraint.cc` 91-97: `e + w ∘ (A y - k c)`. -/
def dirAt (o : Con R) (W : Nat → R) (k : R) (ny : Nat) (y : Nat → R) : Outcome (Nat → R) := do
  let s ← negativeSlack o k ny y
  .ok fun i => s i * W i + 1

/-- `PerformLineSearch`, `/repo/conex/linear_constraint.cc` 83-103: the flag (true: failure) and the
output. -/
def performLineSearch (o : Con R) (W : Nat → R) (c0 c1 dmax : R) (ny : Nat) (y0 y1 : Nat → R)
    (out : Interval R) : Outcome (Bool × Interval R) := do
  let d0 ← dirAt o W c0 ny y0
  let d1 ← dirAt o W c1 ny y1
  let out := findLoop dmax d0 (fun i => d1 i - d0 i) out o.n
  .ok (!out.success, out)

/-- `PerformLineSearch` of an equality constraint (`/repo/conex/equality_constraint.h` 49-54) and of a
quadratic cost (`/repo/conex/quadratic_cost.cc` 59-65): no failure, nothing written. -/
def trivialLineSearch (out : Interval R) : Outcome (Bool × Interval R) := .ok (false, out)

/-- The loop of `ComputeMuFromLineSearch`, `/repo/conex/cone_program.cc` 137-153, on the results of
the constraints; `none` is the early return of -1. -/
def searchLoop : List (Bool × Interval R) → Interval R → Option (Interval R)
  | [], out => some out
  | (failure, i) :: l, out =>
    if failure then none
    else searchLoop l
      { lower := if out.lower.lt i.lower then i.lower else out.lower
        upper := if i.upper.lt out.upper then i.upper else out.upper }

/-- `ComputeMuFromLineSearch`, `/repo/conex/cone_program.cc` 134-159. -/
def computeMu (big : R) (l : List (Bool × Interval R)) : Ext R :=
  match searchLoop l (Interval.default big) with
  | none => .fin (-1)
  | some out => if out.lower.le out.upper then out.upper else .fin (-1)

end Verif.LineSearch
