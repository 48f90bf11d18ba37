import Mathlib.Algebra.BigOperators.Group.Finset.Basic
import Mathlib.Algebra.Field.Basic
import Verif.Model.Outcome
import Verif.Model.SchurSystem
import Verif.Model.ConstraintManager

/-!
# Equality constraints and quadratic costs

Model of `/repo/conex/equality_constraint.cc`, `/repo/conex/quadratic_cost.cc` and of the dispatch
of `Program::AddConstraint` (`/repo/conex/cone_program.h` 191-218).  Scalars are exact.
-/

namespace Verif.Equality

open Schur

variable {R : Type} [Field R]

/-- Assignment to Eigen's `bottomRows(p)` of a vector of `M` entries. -/
def setBottom (M p : Nat) (z y : Nat → R) : Nat → R := fun i =>
  if M - p ≤ i ∧ i < M then z (i - (M - p)) else y i

/-- Assignment to Eigen's `bottomLeftCorner(p, q)` of a matrix with `M` rows. -/
def setBottomLeft (M p q : Nat) (Z Y : Nat → Nat → R) : Nat → Nat → R := fun i j =>
  if (M - p ≤ i ∧ i < M) ∧ j < q then Z (i - (M - p)) j else Y i j

/-- Assignment to Eigen's `topRightCorner(q, p)` of a matrix with `M` columns. -/
def setTopRight (M q p : Nat) (Z Y : Nat → Nat → R) : Nat → Nat → R := fun i j =>
  if i < q ∧ M - p ≤ j ∧ j < M then Z i (j - (M - p)) else Y i j

/-- `EqualityConstraints`, `/repo/conex/equality_constraint.h` 21-55: `A` has `p` rows and `q`
columns, `b` has `nb` rows; `lambda` has `nb` entries. -/
structure Con (R : Type) where
  p : Nat
  q : Nat
  nb : Nat
  A : Nat → Nat → R
  b : Nat → R
  lambda : Nat → R

/-- `ConstructSchurComplementSystem`, `/repo/conex/equality_constraint.cc` 13-28.  Blocks larger than
the system and a `b` with a number of rows different from that of `A` violate Eigen's
preconditions. -/
def schur (o : Con R) (init : Bool) (s : Sys R) : Outcome (Sys R) :=
  if s.rows < o.p ∨ s.rows < o.q ∨ o.nb ≠ o.p then .ub
  else if init then
    let s := s.setZero
    .ok { s with
      G := setTopRight s.rows o.q o.p (fun i j => o.A j i)
        (setBottomLeft s.rows o.p o.q o.A s.G)
      AQc := setBottom s.rows o.p o.b s.AQc }
  else
    let G := setBottomLeft s.rows o.p o.q
      (fun i j => s.G (s.rows - o.p + i) j + o.A i j) s.G
    .ok { s with
      G := setTopRight s.rows o.q o.p (fun i j => G i (s.rows - o.p + j) + o.A j i) G
      AQc := setBottom s.rows o.p (fun i => s.AQc (s.rows - o.p + i) + o.b i) s.AQc }

/-- `PrepareStep`, `/repo/conex/equality_constraint.cc` 30-35: the multipliers are the last entries
of `y` (with `ny` rows); the norms `norminfd` and `normsqrd` are zero. -/
def prepareStep (o : Con R) (ny : Nat) (y : Nat → R) : Outcome (Con R × R × R) :=
  if ny < o.nb then .ub
  else .ok ({ o with lambda := fun i => y (ny - o.nb + i) }, 0, 0)

/-- `ConstructSchurComplementSystem` of a quadratic cost with an `n` by `n` matrix `Q`,
`/repo/conex/quadratic_cost.cc` 46-57. -/
def costSchur (n : Nat) (Q : Nat → Nat → R) (init : Bool) (s : Sys R) : Outcome (Sys R) :=
  if s.rows < n then .ub
  else if init then
    let s := s.setZero
    .ok { s with G := setTopLeft n n Q s.G }
  else .ok { s with G := setTopLeft n n (fun i j => s.G i j + Q i j) s.G }

/-- How an object is passed to the template `AddConstraint(T&& d, …)`: the deduced `T` is
`EqualityConstraints` for a temporary and a reference type for a named object. -/
inductive Category where
  | temporary
  | named
  deriving DecidableEq, Repr

/-- `Program::AddConstraint(d, variables)` for an equality constraint with `p` rows,
`/repo/conex/cone_program.h` 205-218: `std::is_same<T, EqualityConstraints>` is false if `T` is a
reference, and the object is then added as an ordinary constraint.  (The list `constraints_`, used
only for taking steps, is not modelled.) -/
def addOn {κ : Type} (s : CM.Manager κ) (c : Category) (x : κ) (p : Nat) (vars : List Int) :
    Outcome (Bool × CM.Manager κ) :=
  match c with
  | .temporary => s.addEqualityOn x p vars
  | .named => s.addConstraintOn x vars

end Verif.Equality
