import Verif.Model.Preprocess

/-!
# Feasible points of two-sided and one-sided constraints
-/

namespace Verif.Preprocess.Spec

open Finset

variable {R : Type} [Field R] [LinearOrder R]

/-- `a x`. -/
def dot (m : Nat) (a x : Nat → R) : R := ∑ j ∈ range m, a j * x j

/-- `x` satisfies `a x ≤ b` for every row; a row that is not a number is never satisfied. -/
def FeasibleIneq (M : Mat R) (x : Nat → R) : Prop :=
  ∀ r ∈ M.rows, ∃ a b, r = some (a, b) ∧ dot M.cols a x ≤ b

/-- `x` satisfies `a x = b` for every row. -/
def FeasibleEq (M : Mat R) (x : Nat → R) : Prop :=
  ∀ r ∈ M.rows, ∃ a b, r = some (a, b) ∧ dot M.cols a x = b

/-- `x` satisfies `lb ≤ a x ≤ ub`; of two different bounds a lower bound of at most `-1e8` and an
upper bound of at least `1e8` count as absent. -/
def Within (m : Nat) (r : (Nat → R) × R × R) (x : Nat → R) : Prop :=
  (r.2.1 ≤ dot m r.1 x ∨ r.2.1 ≠ r.2.2 ∧ r.2.1 ≤ -100000000) ∧
  (dot m r.1 x ≤ r.2.2 ∨ r.2.1 ≠ r.2.2 ∧ 100000000 ≤ r.2.2)

/-- No row is identically zero together with one of its bounds. -/
def NonZero (m : Nat) (r : (Nat → R) × R × R) : Prop :=
  (∃ j < m, r.1 j ≠ 0) ∨ (r.2.1 ≠ 0 ∧ r.2.2 ≠ 0)

/-- `sqrt` is right at `x`. -/
def SqrtAt (sqrt : R → R) (x : R) : Prop := 0 ≤ sqrt x ∧ sqrt x * sqrt x = x

/-- The matrix can be extended by rows with `m` columns. -/
def Fits (M : Mat R) (m : Nat) : Prop := M.rows = [] ∨ M.cols = m

end Verif.Preprocess.Spec
