import Mathlib.Algebra.BigOperators.Group.Finset.Basic
import Mathlib.Algebra.Order.Field.Basic
import Verif.Model.Outcome

/-!
# Two-sided linear inequalities

Model of `AppendRow` and `PreprocessLinearInequality`, `/repo/conex/linear_constraint.cc` 9-46.
Scalars are exact, `sqrt` is a parameter.  A row scaled by `1 / 0` consists of NaN and infinities; it
is represented by `none`.
-/

namespace Verif.Preprocess

open Finset

variable {R : Type} [Field R] [LinearOrder R]

/-- A row of a constraint `a x ≤ b` or `a x = b`: one row of the matrix and one entry of the vector;
`none` for a row whose entries are not numbers. -/
abbrev Row (R : Type) := Option ((Nat → R) × R)

/-- A pair of a matrix and a right-hand side which always grow together (`Aineq`, `bineq` or `Aeq`,
`beq`), with the number of columns of the matrix. -/
structure Mat (R : Type) where
  cols : Nat
  rows : List (Row R)

/-- `AppendRow` for the matrix and the right-hand side, `/repo/conex/linear_constraint.cc` 9-20.  The
right-hand side has one column in all calls, so its call does not throw. -/
def appendRow (M : Mat R) (cols : Nat) (r : Row R) : Outcome (Mat R) :=
  let c := if M.rows.length = 0 then cols else M.cols
  if c ≠ cols then .throws else .ok ⟨c, M.rows ++ [r]⟩

/-- `scale * A.row(i)`, `scale * b` with `scale = sign / sqrt(‖a‖² + b²)`,
`/repo/conex/linear_constraint.cc` 27-30, 33-36, 39-42. -/
def scaled (sqrt : R → R) (m : Nat) (sign : R) (a : Nat → R) (b : R) : Row R :=
  let r := sqrt ((∑ j ∈ range m, a j * a j) + b * b)
  if r = 0 then none
  else some (fun j => sign * (1 / r) * a j, sign * (1 / r) * b)

/-- The value `1e8` of `/repo/conex/linear_constraint.cc` 32, 38. -/
def huge : R := 100000000

/-- One round of the loop, `/repo/conex/linear_constraint.cc` 26-44: row `a`, bounds `lb` and `ub`;
the state is the pair of the inequalities and the equations. -/
def processRow (sqrt : R → R) (m : Nat) (a : Nat → R) (lb ub : R) (s : Mat R × Mat R) :
    Outcome (Mat R × Mat R) :=
  if lb = ub then do
    let e ← appendRow s.2 m (scaled sqrt m 1 a ub)
    .ok (s.1, e)
  else do
    let i ← if ub < huge then appendRow s.1 m (scaled sqrt m 1 a ub) else .ok s.1
    let i ← if -huge < lb then appendRow i m (scaled sqrt m (-1) a lb) else .ok i
    .ok (i, s.2)

/-- `PreprocessLinearInequality`, `/repo/conex/linear_constraint.cc` 22-46, for a matrix with `m`
columns given by the list of its rows with their bounds. -/
def preprocess (sqrt : R → R) (m : Nat) :
    List ((Nat → R) × R × R) → Mat R × Mat R → Outcome (Mat R × Mat R)
  | [], s => .ok s
  | (a, lb, ub) :: l, s => do
    let s ← processRow sqrt m a lb ub s
    preprocess sqrt m l s

end Verif.Preprocess
