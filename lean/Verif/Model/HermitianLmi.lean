import Mathlib.Algebra.Order.Field.Basic
import Verif.Model.Outcome
import Verif.Model.SchurSystem
import Verif.Model.Divergence
import Verif.Model.MatrixExp

/-!
# Linear matrix inequalities over the reals, complex numbers, quaternions and octonions

Model of `/repo/conex/hermitian_psd.h`, `/repo/conex/hermitian_psd.cc` and of
`MatrixAlgebra::ApproximateEigenvalues` (`/repo/conex/jordan_matrix_algebra.cc` 378-463).  Scalars are
exact; `sqrt`, the eigenvalues `tri` of tridiagonal matrices and the random start vector `r` are
parameters.  A division by zero gives NaN in all results; it is the outcome `none`.
-/

namespace Verif.HermLmi

open Matrix Finset Schur Hyper

variable {R : Type} {d n : Nat}

/-- Square matrices of the order of the constraint. -/
abbrev HMat (d n : Nat) (R : Type) := Hyp d (Fin n) (Fin n) R

/-- One column. -/
abbrev Col (d n : Nat) (R : Type) := Hyp d (Fin n) Unit R

/-- What the map `workspace_.W` (from which the dual variable is read) refers to: memory of the
program (`/repo/conex/hermitian_psd.h` 15-24), the real part of the current `W`, or the real part of
a former `W`, which is freed. -/
inductive Target
  | memory
  | live
  | freed
  deriving DecidableEq, Repr

/-- The data of `HermitianPsdConstraint`, `/repo/conex/hermitian_psd.h` 87-90.  The affine term is a
vector of matrices, which is empty (`none`) in a constraint that was made by its order only. -/
structure Con (d n : Nat) (R : Type) where
  mats : List (HMat d n R)
  affine : Option (HMat d n R)

/-- The members `W`, `WS`, `minus_s` (`/repo/conex/hermitian_psd.h` 93-95) and the map of the
workspace. -/
structure Ws (d n : Nat) (R : Type) where
  W : HMat d n R
  WS : HMat d n R
  minusS : HMat d n R
  dual : Target

/-- `HermitianPsdConstraint(int n)`, `/repo/conex/hermitian_psd.h` 45. -/
def newCon (d n : Nat) (R : Type) : Con d n R := ⟨[], none⟩

section

variable [Field R]

/-- `SetIdentity`, `/repo/conex/hermitian_psd.h` 54-56: the former `W` is freed. -/
def setIdentity (w : Ws d n R) : Ws d n R :=
  { w with W := identity d, dual := if w.dual = .memory then .memory else .freed }

/-- `ComputeNegativeSlack`, `/repo/conex/hermitian_psd.h` 104-109, for a `y` with `ny` rows. -/
def negativeSlack (o : Con d n R) (k : R) (ny : Nat) (y : Nat → R) : Outcome (HMat d n R) :=
  match o.affine with
  | none => .throws
  | some C =>
    if ny < o.mats.length then .ub
    else .ok (o.mats.zipIdx.foldl (fun S q => Hyper.add S (scalarMultiply q.1 (y q.2)))
      (scalarMultiply C (-k)))

section Lanczos

variable [LinearOrder R] [NeZero d]

/-- The two columns of `V` or `U`. -/
structure Pair (d n : Nat) (R : Type) where
  c0 : Col d n R
  c1 : Col d n R

/-- `inner_product`, `/repo/conex/jordan_matrix_algebra.cc` 379-384. -/
def inner (V U : Pair d n R) : R := multiply (conjTranspose V.c0) U.c1 0 () ()

/-- `/repo/conex/jordan_matrix_algebra.cc` 421-422 and 441-442. -/
def apply (WS : HMat d n R) (V : Pair d n R) : Pair d n R :=
  ⟨multiply WS V.c0, multiply (conjTranspose WS) V.c1⟩

/-- `ScalarMultiply` on pairs. -/
def scale (V : Pair d n R) (s : R) : Pair d n R := ⟨scalarMultiply V.c0 s, scalarMultiply V.c1 s⟩

/-- `Add` on pairs. -/
def addPair (V U : Pair d n R) : Pair d n R := ⟨Hyper.add V.c0 U.c0, Hyper.add V.c1 U.c1⟩

/-- The loop, `/repo/conex/jordan_matrix_algebra.cc` 429-447, as the list of pairs
`(beta(j - 1), alpha(j))`. -/
def loop (sqrt : R → R) (WS : HMat d n R) (scaling : R) :
    Nat → Pair d n R → Pair d n R → Option (List (R × R))
  | 0, _, _ => some []
  | k + 1, V, U =>
    if inner U U < 1 / 10 ^ 5 * scaling then some []
    else if inner U U ≤ 0 then none
    else
      let beta := sqrt (inner U U)
      let V' := scale U (1 / beta)
      let U' := apply WS V'
      let alpha := inner V' U'
      (loop sqrt WS scaling k V' (addPair (addPair U' (scale V' (-alpha))) (scale V (-beta)))).map
        ((beta, alpha) :: ·)

/-- `ApproximateEigenvalues`, `/repo/conex/jordan_matrix_algebra.cc` 386-456, up to the eigenvalues of
the tridiagonal matrix: its diagonal and off-diagonal.  `iters` is `num_iter`, which is positive in
all calls. -/
def lanczos (sqrt : R → R) (WS W : HMat d n R) (r : Col d n R) (iters : Nat) :
    Option (List R × List R) :=
  let V : Pair d n R := ⟨multiply W r, r⟩
  if inner V V ≤ 0 then none
  else
    let V := scale V (1 / sqrt (inner V V))
    let U := apply WS V
    let scaling := inner U U
    let alpha := inner V U
    (loop sqrt WS scaling (iters - 1) V (addPair U (scale V (-alpha)))).map
      fun l => (alpha :: l.map Prod.snd, l.map Prod.fst)

/-- `minCoeff` and `maxCoeff` of the eigenvalues of the tridiagonal matrix; `none` stands for NaN. -/
def extremes (tri : List R → List R → List R) (q : Option (List R × List R)) : Option (R × R) := do
  let q ← q
  let a ← (tri q.1 q.2).min?
  let b ← (tri q.1 q.2).max?
  some (a, b)

/-- `PrepareStep` without `affine` for the reals, complex numbers and quaternions,
`/repo/conex/hermitian_psd.cc` 33-71: the constraint and `norminfd`, `normsqrd`. -/
def prepareStep (sqrt : R → R) (tri : List R → List R → List R) (r : Col d n R) (o : Con d n R)
    (cWeight e : R) (ny : Nat) (y : Nat → R) (w : Ws d n R) :
    Outcome (Ws d n R × Option R × R) := do
  let s ← negativeSlack o cWeight ny y
  let WS := multiply w.W s
  let norminf := (extremes tri (lanczos sqrt WS w.W r (n / 2 + 1))).map fun q =>
    if |e + q.1| < |e + q.2| then |e + q.2| else |e + q.1|
  .ok ({ w with WS := WS, minusS := s }, norminf,
    (multiply WS WS 0).trace + 2 * (WS 0).trace + n)

/-- `GetWeightedSlackEigenvalues` for the reals, complex numbers and quaternions,
`/repo/conex/hermitian_psd.cc` 73-91; `none` if the data are NaN. -/
def slackData (sqrt : R → R) (tri : List R → List R → List R) (r : Col d n R) (o : Con d n R)
    (w : Ws d n R) (ny : Nat) (y : Nat → R) (cWeight : R) (p : Divergence.Slack R) :
    Outcome (Option (Divergence.Slack R)) := do
  let s ← negativeSlack o cWeight ny y
  let WS := multiply w.W s
  .ok ((extremes tri (lanczos sqrt WS w.W r (n / 2 + 1))).map fun q =>
    ⟨(multiply WS WS 0).trace, -(WS 0).trace, -q.2, -q.1, p.rank⟩)

end Lanczos

/-- `PrepareStep` with `affine` for the reals, complex numbers and quaternions,
`/repo/conex/hermitian_psd.cc` 36-57. -/
def prepareAffine [DecidableEq R] (o : Con d n R) (cWeight e : R) (ny : Nat) (y : Nat → R)
    (w : Ws d n R) : Outcome (Ws d n R) := do
  let s ← negativeSlack o cWeight ny y
  let WS := multiply w.W s
  let WSW := multiply WS w.W
  let W := if e ≠ 0 then scalarMultiply w.W (1 + e) else w.W
  .ok { W := Hyper.add W WSW, WS := WS, minusS := s, dual := .live }

/-- `TakeStep` for the reals, complex numbers and quaternions, `/repo/conex/hermitian_psd.cc` 9-31. -/
def takeStep [DecidableEq R] (stepSize e : R) (w : Ws d n R) : Ws d n R :=
  let WS := MatrixExp.addDiagonal w.WS e
  let WS := if stepSize ≠ 1 then scalarMultiply WS stepSize else WS
  let W := multiply (MatrixExp.exponentialMap WS) w.W
  { w with
    W := scalarMultiply (Hyper.add W (conjTranspose W)) (1 / 2), WS := WS, dual := .live }

/-- `TakeStep` for octonions, `/repo/conex/hermitian_psd.cc` 116-128. -/
def takeStepOct [DecidableEq R] (stepSize : R) (w : Ws 8 n R) : Ws 8 n R :=
  let s := if stepSize ≠ 1 then scalarMultiply w.minusS stepSize else w.minusS
  { w with W := MatrixExp.geodesicScaled w.W s, minusS := s,
           dual := if w.dual = .memory then .memory else .freed }

/-- `PrepareStep` for octonions, `/repo/conex/hermitian_psd.cc` 130-145: `e_weight` and `affine` are
ignored. -/
def prepareStepOct (o : Con 8 n R) (cWeight : R) (ny : Nat) (y : Nat → R) (w : Ws 8 n R) :
    Outcome (Ws 8 n R × R × R) := do
  let s ← negativeSlack o cWeight ny y
  let traceWs := traceInner w.W s
  .ok ({ w with minusS := s }, 1 / 3 * (traceWs + n),
    traceInner (quadRep w.W s) s + 2 * traceWs + n)

/-- `GetWeightedSlackEigenvalues` for octonions, `/repo/conex/hermitian_psd.cc` 147-168. -/
def slackDataOct [LinearOrder R] (o : Con 8 n R) (w : Ws 8 n R) (ny : Nat) (y : Nat → R) (cWeight : R)
    (p : Divergence.Slack R) : Outcome (Divergence.Slack R) := do
  let s ← negativeSlack o cWeight ny y
  let normsqrd := traceInner (quadRep w.W s) s
  let lmax := |normsqrd| / (1 / 10 ^ 15 + |traceInner w.W s|)
  .ok ⟨traceInner (quadRep w.W s) s, -traceInner w.W s, lmax * (1 / 100), lmax, p.rank⟩

/-- `ConstructSchurComplementSystem`, `/repo/conex/hermitian_psd.cc` 170-230: column `i` of `G` is
written from the diagonal down.  A system with fewer rows than there are matrices is accessed out of
range. -/
def schur [NeZero d] (o : Con d n R) (W : HMat d n R) (init : Bool) (s : Sys R) : Outcome (Sys R) :=
  let A := fun i => o.mats.getD i (Hyper.zero d)
  let m := o.mats.length
  let WAW := fun i => if d = 8 then quadRep W (A i) else multiply W (multiply (A i) W)
  let op := fun old new : R => if init then new else old + new
  if s.rows < m then .ub
  else match o.affine with
    | none => .throws
    | some C => .ok
      { rows := s.rows
        G := fun j i => if j < m ∧ i ≤ j then op (s.G j i) (traceInner (A j) (WAW i)) else s.G j i
        AW := fun i => if i < m then
            op (s.AW i) (if d = 8 then traceInner (A i) W else (multiply (A i) W 0).trace)
          else s.AW i
        AQc := fun i => if i < m then op (s.AQc i) (traceInner C (WAW i)) else s.AQc i
        wc := op s.wc (traceInner C W)
        cQc := op s.cQc (traceInner C (quadRep W C)) }

end

end Verif.HermLmi
