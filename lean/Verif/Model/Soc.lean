import Mathlib.Algebra.BigOperators.Group.Finset.Basic
import Mathlib.Algebra.Order.Field.Basic
import Verif.Model.Outcome
import Verif.Model.SchurSystem
import Verif.Model.Divergence

/-!
# The second-order cone constraint

Model of `/repo/conex/soc_constraint.cc` (without the unused Peirce decomposition, 78-121) and
`/repo/conex/soc_constraint.h`.  Scalars are exact; `sqrt` and `exp` are parameters.  A vector with
`n + 1` entries is an `El`: its first entry `h` and the others `t 0, …, t (n - 1)`.

A failed `assert` is `ub`: it aborts, or with `NDEBUG` the code goes on with a NaN.
-/

namespace Verif.Soc

open Finset Schur

/-- An element of the spin factor. -/
structure El (R : Type) where
  h : R
  t : Nat → R

variable {R : Type} [Field R] [LinearOrder R]

/-- Eigen's `dot` of two vectors with `n` entries. -/
def dot (n : Nat) (x y : Nat → R) : R := ∑ i ∈ range n, x i * y i

/-- The members of `SpectralDecompSpinFactor` written by `Compute`. -/
structure Decomp (R : Type) where
  norm : R
  q : Nat → R
  ev0 : R
  ev1 : R

/-- `SpectralDecompSpinFactor::Compute`, `/repo/conex/soc_constraint.cc` 41-50. -/
def compute (sqrt : R → R) (n : Nat) (x : El R) : Decomp R :=
  let k := sqrt (dot n x.t x.t)
  { norm := k
    q := if 0 < k then fun i => x.t i / k else x.t
    ev0 := x.h + k
    ev1 := x.h - k }

/-- `Idempotents().col(0)`, `/repo/conex/soc_constraint.cc` 56-68. -/
def idem0 (s : Decomp R) : El R :=
  if 0 < s.norm then ⟨1 / 2, fun i => 1 / 2 * s.q i⟩ else ⟨1 / 2, fun _ => 0⟩

/-- `Idempotents().col(1)`, `/repo/conex/soc_constraint.cc` 56-68. -/
def idem1 (s : Decomp R) : El R :=
  if 0 < s.norm then ⟨1 / 2, fun i => -(1 / 2) * s.q i⟩ else ⟨1 / 2, fun _ => 0⟩

/-- `QuadraticRepresentation`, `/repo/conex/soc_constraint.cc` 128-143. -/
def quadRep (n : Nat) (x y : El R) : El R :=
  let det := x.h * x.h - dot n x.t x.t
  let z0 := det * y.h
  let a := 2 * (x.h * y.h + dot n x.t y.t)
  ⟨a * x.h + z0 * -1, fun i => a * x.t i + det * y.t i⟩

/-- `a * Idempotent(0) + b * Idempotent(1)`. -/
def combine (a b : R) (s : Decomp R) : El R :=
  ⟨a * (idem0 s).h + b * (idem1 s).h, fun i => a * (idem0 s).t i + b * (idem1 s).t i⟩

/-- `Sqrt`, `/repo/conex/soc_constraint.cc` 145-163. -/
def sqrtEl (sqrt : R → R) (n : Nat) (x : El R) : Outcome (El R) :=
  let s := compute sqrt n x
  if min s.ev0 s.ev1 < 0 then .ub
  else .ok (combine (sqrt s.ev0) (sqrt s.ev1) s)

/-- `Exp`, `/repo/conex/soc_constraint.cc` 165-176. -/
def expEl (sqrt exp : R → R) (n : Nat) (x : El R) : El R :=
  let s := compute sqrt n x
  combine (exp s.ev0) (exp s.ev1) s

/-- `NormInf`, `/repo/conex/soc_constraint.cc` 178-191. -/
def normInf (sqrt : R → R) (n : Nat) (x : El R) : R :=
  let s := compute sqrt n x
  if |s.ev1| < |s.ev0| then |s.ev0| else |s.ev1|

/-- `SOCConstraint`, `/repo/conex/soc_constraint.h` 6-53: `n` is `workspace_.n_`; `A` is
`constraint_matrix_` with `rowsA` rows and `m` columns; `c` is `constraint_affine_` with `rowsC` rows;
`order` is the member `n_`, which the constructor from matrices does not set (`none`). -/
structure Con (R : Type) where
  n : Nat
  order : Option Nat
  rowsA : Nat
  m : Nat
  A : Nat → Nat → R
  rowsC : Nat
  c : Nat → R

/-- `SOCConstraint(constraint_matrix, constraint_affine)`, `/repo/conex/soc_constraint.h` 10-16, for
matrices with `n + 1` rows. -/
def ofMatrices (n m : Nat) (A : Nat → Nat → R) (c : Nat → R) : Con R :=
  ⟨n, none, n + 1, m, A, n + 1, c⟩

/-- `SOCConstraint(int n)`, `/repo/conex/soc_constraint.h` 19: both matrices are empty. -/
def ofOrder (n : Nat) : Con R := ⟨n, some n, 0, 0, fun _ _ => 0, 0, fun _ => 0⟩

/-- The part of `WorkspaceSOC` (`/repo/conex/workspace_soc.h` 7-53) used by the constraint: the scaling
point `(*W0, W1)` and the direction `(d0, temp1_1)`. -/
structure Ws (R : Type) where
  W : El R
  d : El R

/-- Column `j` of a matrix as element. -/
def col (A : Nat → Nat → R) (j : Nat) : El R := ⟨A 0 j, fun i => A (i + 1) j⟩

/-- A vector as element. -/
def ofVec (c : Nat → R) : El R := ⟨c 0, fun i => c (i + 1)⟩

/-- `ComputeNegativeSlack`, `/repo/conex/soc_constraint.cc` 193-197, for a `y` with `ny` rows and a
result with `n + 1` rows: sizes must agree. -/
def negativeSlack (o : Con R) (k : R) (ny : Nat) (y : Nat → R) : Outcome (El R) :=
  if ny ≠ o.m ∨ o.rowsA ≠ o.n + 1 ∨ o.rowsC ≠ o.n + 1 then .ub
  else .ok (ofVec fun r => (∑ j ∈ range o.m, o.A r j * y j) - o.c r * k)

/-- `SetIdentity`, `/repo/conex/soc_constraint.h` 25-28. -/
def setIdentity (w : Ws R) : Ws R := { w with W := ⟨1, fun _ => 0⟩ }

/-- `PrepareStep`, `/repo/conex/soc_constraint.cc` 251-270: the workspace, `norminfd` and
`normsqrd`.  The scaling point is replaced by its square root.  Of the options only `c_weight` is
read. -/
def prepareStep (sqrt : R → R) (o : Con R) (cWeight : R) (ny : Nat) (y : Nat → R) (w : Ws R) :
    Outcome (Ws R × R × R) := do
  let s ← negativeSlack o cWeight ny y
  let z ← sqrtEl sqrt o.n w.W
  let d := quadRep o.n z s
  let d : El R := ⟨d.h + 1, d.t⟩
  .ok (⟨z, d⟩, normInf sqrt o.n d, 2 * (d.h * d.h + dot o.n d.t d.t))

/-- `TakeStep`, `/repo/conex/soc_constraint.cc` 225-249.  `d0` is a local copy, `temp1_1` a local map on
the same memory, so that only the tail of the stored direction is scaled. -/
def takeStep (sqrt exp : R → R) (o : Con R) (stepSize : R) (w : Ws R) : Outcome (Ws R) :=
  let d : El R := if stepSize ≠ 1 then ⟨w.d.h * stepSize, fun i => w.d.t i * stepSize⟩ else w.d
  let wn := quadRep o.n w.W (expEl sqrt exp o.n d)
  if wn.h < sqrt (dot o.n wn.t wn.t) then .ub
  else .ok ⟨wn, ⟨w.d.h, d.t⟩⟩

/-- `GetWeightedSlackEigenvalues`, `/repo/conex/soc_constraint.cc` 200-223: the data written; the
`rank` of the argument is kept. -/
def slackData (sqrt : R → R) (o : Con R) (w : Ws R) (ny : Nat) (y : Nat → R) (cWeight : R)
    (p : Divergence.Slack R) : Outcome (Divergence.Slack R) := do
  let s ← negativeSlack o cWeight ny y
  let z ← sqrtEl sqrt o.n w.W
  let ev := compute sqrt o.n (quadRep o.n z s)
  let lmax := -min ev.ev0 ev.ev1
  let lmin := -max ev.ev0 ev.ev1
  .ok ⟨lmax * lmax + lmin * lmin, lmax + lmin, lmin, lmax, p.rank⟩

/-- `ConstructSchurComplementSystem`, `/repo/conex/soc_constraint.cc` 272-303.  The sizes must agree:
the matrices of the system are maps that cannot be resized. -/
def schur (sqrt : R → R) (o : Con R) (W : El R) (init : Bool) (s : Sys R) : Outcome (Sys R) := do
  let z ← sqrtEl sqrt o.n W
  if o.rowsA ≠ o.n + 1 ∨ o.rowsC ≠ o.n + 1 ∨ s.rows ≠ o.m then .ub
  else
    let WA := fun j => quadRep o.n z (col o.A j)
    let WC := quadRep o.n z (ofVec o.c)
    let full := fun (x y : El R) => x.h * y.h + dot o.n x.t y.t
    let G := fun i j => 2 * full (WA i) (WA j)
    let AW := fun i => 2 * full (col o.A i) W
    let AQc := fun i => 2 * full (WA i) WC
    let wc := 2 * WC.h
    let cQc := 2 * full WC WC
    if init then
      .ok { s with
        G := setTopLeft o.m o.m G s.G
        AW := setTop o.m AW s.AW
        AQc := setTop o.m AQc s.AQc
        wc := wc
        cQc := cQc }
    else
      .ok { s with
        G := setTopLeft o.m o.m (fun i j => s.G i j + G i j) s.G
        AW := setTop o.m (fun i => s.AW i + AW i) s.AW
        AQc := setTop o.m (fun i => s.AQc i + AQc i) s.AQc
        wc := s.wc + wc
        cQc := s.cQc + cQc }

end Verif.Soc
