import Verif.Model.HermitianLmi
import Verif.Model.LinearConstraint
import Verif.Model.Soc

/-!
# Updates of single coefficients

Model of `UpdateLinearOperator` and `UpdateAffineTerm` of all constraints, of their dispatch
(`/repo/conex/constraint.h` 13-22 and 83-94, `/repo/conex/cone_program.h` 147-172) and of the calls of
the C interface behind the check of the handle (`/repo/interfaces/conex.cc` 356-382).  All indices are
`int`s of the caller.  Statuses are 0 for `CONEX_SUCCESS` and 1 for the return of `CONEX_DEMAND`.  Very
large variable indices, for which the number of new matrices or columns exceeds the memory, are not
distinguished.
-/

namespace Verif.Updates

variable {R : Type}

/-- Two assignments to component `dim` of a hypercomplex matrix: `(r, c) = val` and then
`(c, r) = ±val`, `/repo/conex/hermitian_psd.cc` 267-272 and 304-309. -/
def write {d n : Nat} [Neg R] (M : HermLmi.HMat d n R) (dim r c : Nat) (val : R) : HermLmi.HMat d n R :=
  fun k i j =>
    if k.1 = dim then
      if i.1 = c ∧ j.1 = r then (if dim = 0 then val else -val)
      else if i.1 = r ∧ j.1 = c then val
      else M k i j
    else M k i j

/-- The first three checks of both functions, `/repo/conex/hermitian_psd.cc` 250-254 and 287-291.
(The test for octonions that follows compares two types that are never equal.) -/
def hermitianRejects (d n : Nat) [Zero R] [DecidableEq R] (val : R) (r c dim : Int) : Bool :=
  !(decide (dim < d)) || !(decide (r < n ∧ c < n)) || decide (val ≠ 0 ∧ r = c ∧ 0 < dim)

/-- `UpdateLinearOperator` of `HermitianPsdConstraint`, `/repo/conex/hermitian_psd.cc` 247-274.
`std::vector::at` throws for a negative index; an Eigen matrix has no defined behaviour for one. -/
def hermitianOperator {d n : Nat} [Field R] [DecidableEq R] (o : HermLmi.Con d n R) (val : R)
    (var r c dim : Int) : Outcome (Int × HermLmi.Con d n R) :=
  if hermitianRejects d n val r c dim then .ok (1, o)
  else
    let mats := o.mats ++ List.replicate (var + 1 - o.mats.length).toNat (Hyper.zero d)
    if var < 0 then .throws
    else if dim < 0 then .throws
    else if r < 0 ∨ c < 0 then .ub
    else .ok (0, { o with
      mats := mats.set var.toNat
        (write (mats.getD var.toNat (Hyper.zero d)) dim.toNat r.toNat c.toNat val) })

/-- `UpdateAffineTerm` of `HermitianPsdConstraint`, `/repo/conex/hermitian_psd.cc` 284-312. -/
def hermitianAffine {d n : Nat} [Field R] [DecidableEq R] (o : HermLmi.Con d n R) (val : R)
    (r c dim : Int) : Outcome (Int × HermLmi.Con d n R) :=
  if hermitianRejects d n val r c dim then .ok (1, o)
  else if dim < 0 then .throws
  else if r < 0 ∨ c < 0 then .ub
  else .ok (0, { o with
    affine := some (write (o.affine.getD (Hyper.zero d)) dim.toNat r.toNat c.toNat val) })

/-- Assignment to one entry of a matrix. -/
def setEntry (A : Nat → Nat → R) (r c : Nat) (val : R) : Nat → Nat → R :=
  fun i j => if i = r ∧ j = c then val else A i j

/-- `UpdateLinearOperator` of `LinearConstraint`, `/repo/conex/linear_constraint.cc` 207-216. -/
def linearOperator (o : Linear.Con R) (val : R) (var r c dim : Int) : Outcome (Int × Linear.Con R) :=
  if dim ≠ 0 then .ok (1, o)
  else if c ≠ 0 then .ok (1, o)
  else if ¬ r < o.n then .ok (1, o)
  else if ¬ (0 ≤ var ∧ 0 ≤ r) then .ok (1, o)
  else if (o.m : Int) ≤ var then .ub
  else .ok (0, { o with A := setEntry o.A r.toNat var.toNat val })

/-- `UpdateAffineTerm` of `LinearConstraint`, `/repo/conex/linear_constraint.cc` 218-226. -/
def linearAffine (o : Linear.Con R) (val : R) (r c dim : Int) : Outcome (Int × Linear.Con R) :=
  if dim ≠ 0 then .ok (1, o)
  else if c ≠ 0 then .ok (1, o)
  else if ¬ r < o.n then .ok (1, o)
  else if ¬ 0 ≤ r then .ok (1, o)
  else .ok (0, { o with c := fun i => if i = r.toNat then val else o.c i })

/-- `UpdateLinearOperator` of `SOCConstraint`, `/repo/conex/soc_constraint.cc` 305-325.  The member `n_`
is uninitialised (`none`) in a constraint made from matrices. -/
def socOperator [Zero R] (o : Soc.Con R) (val : R) (var r c dim : Int) : Outcome (Int × Soc.Con R) :=
  if dim ≠ 0 then .ok (1, o)
  else if c ≠ 0 then .ok (1, o)
  else match o.order with
    | none => .ub
    | some n =>
      if ¬ r ≤ n then .ok (1, o)
      else if ¬ (0 ≤ var ∧ 0 ≤ r) then .ok (1, o)
      else
        let o := if (o.m : Int) ≤ var then
            { o with rowsA := n + 1, m := var.toNat + 1, A := fun i j => if j < o.m then o.A i j else 0 }
          else o
        if (o.rowsA : Int) ≤ r then .ub
        else .ok (0, { o with A := setEntry o.A r.toNat var.toNat val })

/-- `UpdateAffineTerm` of `SOCConstraint`, `/repo/conex/soc_constraint.cc` 327-337; `rowsC = 0` is the
empty matrix that the constructor leaves. -/
def socAffine [Zero R] (o : Soc.Con R) (val : R) (r c dim : Int) : Outcome (Int × Soc.Con R) :=
  if dim ≠ 0 then .ok (1, o)
  else if c ≠ 0 then .ok (1, o)
  else match o.order with
    | none => .ub
    | some n =>
      if ¬ r ≤ n then .ok (1, o)
      else if ¬ 0 ≤ r then .ok (1, o)
      else
        let o := if o.rowsC = 0 then { o with rowsC := n + 1, c := fun _ => 0 } else o
        if (o.rowsC : Int) ≤ r then .ub
        else .ok (0, { o with c := fun i => if i = r.toNat then val else o.c i })

/-- `UpdateAffineTerm` of `QuadraticFunction` with a matrix of order `n`,
`/repo/conex/quadratic_cost.cc` 33-39. -/
def costAffine (n : Nat) (Q : Nat → Nat → R) (val : R) (r c dim : Int) :
    Outcome (Int × (Nat → Nat → R)) :=
  if dim ≠ 0 then .ok (1, Q)
  else if ¬ (r < n ∧ c < n) then .ok (1, Q)
  else if r < 0 ∨ c < 0 then .ub
  else .ok (0, setEntry Q r.toNat c.toNat val)

/-- The constraints of a program; `other` stands for the kinds without updates
(`/repo/conex/constraint.h` 13-22): dense matrix inequalities, equations, quadratic cones, bounds. -/
inductive Any (R : Type) where
  | hermitian (d n : Nat) (o : HermLmi.Con d n R)
  | linear (o : Linear.Con R)
  | soc (o : Soc.Con R)
  | cost (n : Nat) (Q : Nat → Nat → R)
  | other

variable [Field R] [DecidableEq R]

/-- `UpdateLinearOperator` of `Constraint`, `/repo/conex/constraint.h` 83-87. -/
def anyOperator (a : Any R) (val : R) (var r c dim : Int) : Outcome (Int × Any R) :=
  match a with
  | .hermitian d n o => do
    let q ← hermitianOperator o val var r c dim
    .ok (q.1, .hermitian d n q.2)
  | .linear o => do
    let q ← linearOperator o val var r c dim
    .ok (q.1, .linear q.2)
  | .soc o => do
    let q ← socOperator o val var r c dim
    .ok (q.1, .soc q.2)
  | .cost n Q => .ok (1, .cost n Q)
  | .other => .ok (1, .other)

/-- `UpdateAffineTerm` of `Constraint`, `/repo/conex/constraint.h` 89-92. -/
def anyAffine (a : Any R) (val : R) (r c dim : Int) : Outcome (Int × Any R) :=
  match a with
  | .hermitian d n o => do
    let q ← hermitianAffine o val r c dim
    .ok (q.1, .hermitian d n q.2)
  | .linear o => do
    let q ← linearAffine o val r c dim
    .ok (q.1, .linear q.2)
  | .soc o => do
    let q ← socAffine o val r c dim
    .ok (q.1, .soc q.2)
  | .cost n Q => do
    let q ← costAffine n Q val r c dim
    .ok (q.1, .cost n q.2)
  | .other => .ok (1, .other)

/-- The loops of `UpdateLinearOperatorOfConstraint` and `UpdateAffineTermOfConstraint`,
`/repo/conex/cone_program.h` 147-172: the counter `cnt` is compared with `i`. -/
def dispatch (f : Any R → Outcome (Int × Any R)) (i cnt : Int) :
    List (Any R) → Outcome (Int × List (Any R))
  | [] => .ok (1, [])
  | a :: l =>
    if cnt = i then do
      let q ← f a
      .ok (q.1, q.2 :: l)
    else do
      let q ← dispatch f i (cnt + 1) l
      .ok (q.1, a :: q.2)

/-- `CONEX_UpdateLinearOperator`, `/repo/interfaces/conex.cc` 365-373. -/
def cOperator (p : List (Any R)) (i : Int) (val : R) (var r c dim : Int) :
    Outcome (Int × List (Any R)) :=
  if ¬ i < p.length then .ok (1, p)
  else dispatch (fun a => anyOperator a val var r c dim) i 0 p

/-- `CONEX_UpdateAffineTerm`, `/repo/interfaces/conex.cc` 375-382. -/
def cAffine (p : List (Any R)) (i : Int) (val : R) (r c dim : Int) : Outcome (Int × List (Any R)) :=
  if ¬ i < p.length then .ok (1, p)
  else dispatch (fun a => anyAffine a val r c dim) i 0 p

/-- `CONEX_UpdateQuadraticCostMatrix`, `/repo/interfaces/conex.cc` 356-363. -/
def cCost (p : List (Any R)) (i : Int) (val : R) (r c : Int) : Outcome (Int × List (Any R)) :=
  if ¬ i < p.length then .ok (1, p)
  else dispatch (fun a => anyAffine a val r c 0) i 0 p

end Verif.Updates
