import Verif.Model.Divergence
import Mathlib.Algebra.BigOperators.Group.List.Basic

/-!
# The divergence bound of a list of eigenvalues

`S` is the scaled slack, given by the list of its eigenvalues.
-/

namespace Verif.Divergence.Spec

variable {R : Type} [Field R] [LinearOrder R]

/-- `‖k S - e‖∞`. -/
def dist (l : List R) (k : R) : R := (l.map fun x => |k * x - 1|).foldr max 0

/-- `‖k S - e‖²`. -/
def distSq (l : List R) (k : R) : R := (l.map fun x => (k * x - 1) ^ 2).sum

/-- The upper bound `‖k S - e‖² / (1 - ‖k S - e‖∞)` of the divergence, finite where
`‖k S - e‖∞ < 1`. -/
def bound (l : List R) (k : R) : R := distSq l k / (1 - dist l k)

/-- `p` holds the data of the list of eigenvalues `l`. -/
structure DataOf (l : List R) (p : Slack R) : Prop where
  frob : p.frob = (l.map fun x => x ^ 2).sum
  trace : p.trace = l.sum
  rank : p.rank = l.length
  lmin_mem : p.lmin ∈ l
  lmin_le : ∀ x ∈ l, p.lmin ≤ x
  lmax_mem : p.lmax ∈ l
  le_lmax : ∀ x ∈ l, x ≤ p.lmax

/-- `sqrt` is right at `x`. -/
def SqrtAt (sqrt : R → R) (x : R) : Prop := 0 ≤ sqrt x ∧ sqrt x * sqrt x = x

end Verif.Divergence.Spec
