import Mathlib.Algebra.BigOperators.Group.Finset.Basic
import Mathlib.Algebra.Order.Field.Basic
import Verif.Model.Outcome
import Verif.Model.SchurSystem
import Verif.Model.Divergence

/-!
# The linear inequality constraint

Model of `/repo/conex/linear_constraint.cc` 83-205 (operations on the scaling point).  Scalars are
exact; `exp` is a parameter.  Vectors and matrices are functions of their indices, with the
dimensions in the constraint.
-/

namespace Verif.Linear

open Finset Schur

variable {R : Type} [Field R] [LinearOrder R]

/-- `LinearConstraint`, `/repo/conex/linear_constraint.h` 14-83: `n` rows, `m` columns, `A` is
`constraint_matrix_` and `c` is `constraint_affine_`. -/
structure Con (R : Type) where
  n : Nat
  m : Nat
  A : Nat → Nat → R
  c : Nat → R

/-- The part of `WorkspaceLinear` (`/repo/conex/linear_workspace.h` 7-41) that is read before it is
written. -/
structure Ws (R : Type) where
  W : Nat → R
  temp1 : Nat → R
  temp2 : Nat → R

/-- `StepOptions`, `/repo/conex/newton_step.h` 24-31, without the unused `inv_sqrt_mu`. -/
structure StepOpt (R : Type) where
  affine : Bool
  cWeight : R
  eWeight : R
  stepSize : R

/-- `ComputeNegativeSlack`, `/repo/conex/linear_constraint.cc` 164-168, for a `y` with `ny` rows:
`topRows` of a shorter vector is an out-of-range block. -/
def negativeSlack (o : Con R) (k : R) (ny : Nat) (y : Nat → R) : Outcome (Nat → R) :=
  if ny < o.m then .ub
  else .ok fun r => (∑ j ∈ range o.m, o.A r j * y j) - o.c r * k

/-- `maxCoeff` of Eigen for a vector of `n + 1` entries. -/
def maxCoeff (f : Nat → R) : Nat → R
  | 0 => f 0
  | n + 1 => max (maxCoeff f n) (f (n + 1))

/-- `minCoeff` of Eigen for a vector of `n + 1` entries. -/
def minCoeff (f : Nat → R) : Nat → R
  | 0 => f 0
  | n + 1 => min (minCoeff f n) (f (n + 1))

/-- `SetIdentity`, `/repo/conex/linear_constraint.cc` 105. -/
def setIdentity (w : Ws R) : Ws R := { w with W := fun _ => 1 }

/-- `AffineUpdate`, `/repo/conex/linear_constraint.cc` 170-175; the argument is `temp_1` itself, as in
its only call (line 141). -/
def affineUpdate (w : Ws R) : Ws R :=
  let sw := fun i => w.temp1 i * w.W i
  { w with temp1 := sw, W := fun i => w.W i + w.W i * sw i }

/-- `TakeStep`, `/repo/conex/linear_constraint.cc` 130-144. -/
def takeStep (exp : R → R) (opt : StepOpt R) (w : Ws R) : Ws R :=
  if opt.affine then affineUpdate w
  else
    let d := fun i => if opt.stepSize = 1 then w.temp2 i else w.temp2 i * opt.stepSize
    { w with temp2 := fun i => exp (d i), W := fun i => w.W i * exp (d i) }

/-- `PrepareStep`, `/repo/conex/linear_constraint.cc` 108-128.  The result is the workspace and, in
the non-affine case, `norminfd` and `normsqrd`; `maxCoeff` of an empty vector is undefined. -/
def prepareStep (exp : R → R) (o : Con R) (opt : StepOpt R) (ny : Nat) (y : Nat → R) (w : Ws R) :
    Outcome (Ws R × Option (R × R)) :=
  if opt.affine then do
    let s ← negativeSlack o 0 ny y
    .ok (takeStep exp opt { w with temp1 := s }, none)
  else do
    let s ← negativeSlack o opt.cWeight ny y
    let d := fun i => s i * w.W i + opt.eWeight
    if o.n = 0 then .ub
    else
      .ok ({ w with temp2 := d },
        some (maxCoeff (fun i => |d i|) (o.n - 1), ∑ i ∈ range o.n, d i * d i))

/-- `GetWeightedSlackEigenvalues`, `/repo/conex/linear_constraint.cc` 147-162: the data written; the
`rank` of the argument is kept. -/
def slackData (o : Con R) (w : Ws R) (ny : Nat) (y : Nat → R) (cWeight : R)
    (p : Divergence.Slack R) : Outcome (Divergence.Slack R) := do
  let s ← negativeSlack o cWeight ny y
  let ws := fun i => w.W i * s i
  if o.n = 0 then .ub
  else
    .ok ⟨∑ i ∈ range o.n, ws i * ws i, -∑ i ∈ range o.n, ws i, -maxCoeff ws (o.n - 1),
      -minCoeff ws (o.n - 1), p.rank⟩

/-- `ConstructSchurComplementSystem`, `/repo/conex/linear_constraint.cc` 177-205.  A system with
fewer rows than the constraint has columns is an out-of-range block. -/
def schur (o : Con R) (W : Nat → R) (init : Bool) (s : Sys R) : Outcome (Sys R) :=
  let WA := fun r j => W r * o.A r j
  let WC := fun r => W r * o.c r
  let G := fun i j => ∑ r ∈ range o.n, WA r i * WA r j
  let AW := fun i => ∑ r ∈ range o.n, o.A r i * W r
  let AQc := fun i => ∑ r ∈ range o.n, WA r i * WC r
  let wc := ∑ r ∈ range o.n, WC r
  let cQc := ∑ r ∈ range o.n, WC r * WC r
  if s.rows < o.m then .ub
  else if init then
    let s := { s with wc := wc, cQc := cQc }
    let s := if s.rows ≠ o.m then s.setZero else s
    .ok { s with
      G := setTopLeft o.m o.m G s.G
      AW := setTop o.m AW s.AW
      AQc := setTop o.m AQc s.AQc }
  else
    .ok { s with
      wc := s.wc + wc
      cQc := s.cQc + cQc
      G := setTopLeft o.m o.m (fun i j => s.G i j + G i j) s.G
      AW := setTop o.m (fun i => s.AW i + AW i) s.AW
      AQc := setTop o.m (fun i => s.AQc i + AQc i) s.AQc }

/-- `LowerBound`, `/repo/conex/linear_constraint.h` 86-100. -/
def lowerBound (n : Nat) (lb : Nat → R) : Con R :=
  ⟨n, n, fun i j => if i = j then -1 else 0, fun i => -lb i⟩

/-- `UpperBound`, `/repo/conex/linear_constraint.h` 102-116. -/
def upperBound (n : Nat) (ub : Nat → R) : Con R :=
  ⟨n, n, fun i j => if i = j then 1 else 0, ub⟩

end Verif.Linear
