import Mathlib.LinearAlgebra.Matrix.Trace
import Verif.Model.Outcome
import Verif.Model.SchurSystem
import Verif.Model.Divergence
import Verif.Model.MatrixExp
import Verif.Model.Lanczos

/-!
# Linear matrix inequalities with symmetric matrices

Model of `/repo/conex/psd_constraint.cc` and `/repo/conex/dense_lmi_constraint.cc`.  Scalars are
exact; `sqrt`, the eigenvalues `tri` of tridiagonal matrices and the linear solver `solve` are
parameters.
-/

namespace Verif.Lmi

open Matrix Finset Schur

variable {R : Type} [Field R] [LinearOrder R] {n : Nat}

/-- Matrices of the order of the constraint. -/
abbrev Mat (n : Nat) (R : Type) := Matrix (Fin n) (Fin n) R

/-- `DenseLMIConstraint`, `/repo/conex/dense_lmi_constraint.h` 7-41: `m` matrices and the affine
term. -/
structure Con (n : Nat) (R : Type) where
  m : Nat
  A : Nat → Mat n R
  C : Mat n R

/-- The part of `WorkspaceDensePSD` (`/repo/conex/psd_constraint.h` 9-38) that is read before it is
written: `W` and `temp_1`. -/
structure Ws (n : Nat) (R : Type) where
  W : Mat n R
  t1 : Mat n R

/-- `SetIdentity`, `/repo/conex/psd_constraint.cc` 92-95. -/
def setIdentity (w : Ws n R) : Ws n R := { w with W := 1 }

/-- `ComputeNegativeSlack`, `/repo/conex/dense_lmi_constraint.cc` 8-27, for a `y` with `ny` rows. -/
def negativeSlack (o : Con n R) (k : R) (ny : Nat) (y : Nat → R) : Outcome (Mat n R) :=
  if ny < o.m then .ub else .ok ((∑ i ∈ range o.m, y i • o.A i) - k • o.C)

/-- `WS.diagonal().maxCoeff(&index)`: the first index of the largest entry; undefined for an empty
matrix. -/
def argmaxDiag (M : Mat n R) : Option (Fin n) :=
  (List.finRange n).foldl (fun b i => match b with
    | none => some i
    | some j => if M j j < M i i then some i else some j) none

/-- `GeodesicUpdate`, `/repo/conex/psd_constraint.cc` 13-28; the argument `WS` is `temp_1`, which
receives the transpose. -/
def geodesicUpdate (solve : Mat n R → Mat n R → Mat n R) (scale e : R) (w : Ws n R) : Ws n R :=
  let WS := w.t1 + e • 1
  let WS := if scale ≠ 1 then scale • WS else WS
  let W := MatrixExp.pade solve WS * w.W
  { W := (1 / 2 : R) • (W + Wᵀ), t1 := Wᵀ }

/-- `AffineUpdate`, `/repo/conex/psd_constraint.cc` 33-43. -/
def affineUpdate (e : R) (w : Ws n R) : Ws n R :=
  let WSW := w.t1 * w.W
  if e = 0 then { w with W := w.W + WSW } else { w with W := (1 + e) • w.W + WSW }

/-- `min` and `max` of the returned vector; `none` stands for NaN. -/
def extremes (l : Option (List R)) : Option (R × R) := do
  let l ← l
  let a ← l.min?
  let b ← l.max?
  some (a, b)

/-- `PrepareStep` with `affine`, `/repo/conex/psd_constraint.cc` 53-58. -/
def prepareAffine (o : Con n R) (cWeight e : R) (ny : Nat) (y : Nat → R) (w : Ws n R) :
    Outcome (Ws n R) := do
  let s ← negativeSlack o cWeight ny y
  .ok (affineUpdate e { w with t1 := w.W * s })

/-- `PrepareStep` without `affine`, `/repo/conex/psd_constraint.cc` 45-84: the workspace and
`norminfd`, `normsqrd`.  The start vector is `minus_s.col(index)`, where `minus_s` and `WS` are the
same `temp_1`: the column is one of `WS`. -/
def prepareStep (sqrt : R → R) (tri : List R → List R → List R) (o : Con n R) (cWeight e : R)
    (ny : Nat) (y : Nat → R) (w : Ws n R) : Outcome (Ws n R × Option R × R) := do
  let s ← negativeSlack o cWeight ny y
  let WS := w.W * s
  match argmaxDiag WS with
  | none => .ub
  | some i =>
    let gw := Lanczos.approxEigenvalues sqrt tri WS w.W (fun r => WS r i) (n / 2)
    let norminf := (extremes gw).map fun q =>
      if |e + q.1| < |e + q.2| then |e + q.2| else |e + q.1|
    .ok ({ w with t1 := WS }, norminf, (WS * WS).trace + 2 * WS.trace + n)

/-- `TakeStep`, `/repo/conex/psd_constraint.cc` 86-90. -/
def takeStep (solve : Mat n R → Mat n R → Mat n R) (scale e : R) (w : Ws n R) : Ws n R :=
  geodesicUpdate solve scale e w

/-- `GetWeightedSlackEigenvalues`, `/repo/conex/psd_constraint.cc` 97-128: the data written, `none`
if they are NaN; here `WS` is `temp_2` and the start vector is a column of the slack. -/
def slackData (sqrt : R → R) (tri : List R → List R → List R) (o : Con n R) (w : Ws n R) (ny : Nat)
    (y : Nat → R) (cWeight : R) (p : Divergence.Slack R) : Outcome (Option (Divergence.Slack R)) := do
  let s ← negativeSlack o cWeight ny y
  let WS := w.W * s
  match argmaxDiag WS with
  | none => .ub
  | some i =>
    let gw := Lanczos.approxEigenvalues sqrt tri WS w.W (fun r => s r i) (n / 2)
    .ok ((extremes gw).map fun q => ⟨(WS * WS).trace, -WS.trace, -q.2, -q.1, p.rank⟩)

/-- `TraceInnerProduct`, `/repo/conex/dense_lmi_constraint.cc` 54-60. -/
def traceInner (X Y : Mat n R) : R := ∑ c : Fin n, ∑ r : Fin n, X r c * Y r c

/-- `ConstructSchurComplementSystem`, `/repo/conex/dense_lmi_constraint.cc` 72-103: row `i` of `G` is
written up to the diagonal.  A system with fewer rows than there are matrices is accessed out of
range. -/
def schur (o : Con n R) (W : Mat n R) (init : Bool) (s : Sys R) : Outcome (Sys R) :=
  let WAW := fun i => W * (o.A i * W)
  let op := fun old new : R => if init then new else old + new
  if s.rows < o.m then .ub
  else .ok
    { rows := s.rows
      G := fun i j => if i < o.m ∧ j ≤ i then op (s.G i j) (traceInner (WAW i) (o.A j)) else s.G i j
      AW := fun i => if i < o.m then op (s.AW i) (o.A i * W).trace else s.AW i
      AQc := fun i => if i < o.m then op (s.AQc i) (traceInner o.C (WAW i)) else s.AQc i
      wc := op s.wc (traceInner o.C W)
      cQc := op s.cQc (traceInner o.C (W * (o.C * W))) }

end Verif.Lmi
