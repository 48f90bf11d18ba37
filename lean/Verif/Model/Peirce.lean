import Verif.Model.Outcome
import Mathlib.Algebra.Field.Basic

/-!
# Peirce decomposition of the spin factor

`/repo/conex/soc_constraint.cc` 14-37 and 70-121: the members of `SpectralDecompSpinFactor` that
split a vector in its three Peirce components.  Nothing in the library calls them.

Eigen vectors are lists.  An operation of Eigen on vectors whose sizes do not fit is an assertion
that vanishes in a release build, so it is `ub` here.
-/

namespace Verif.Peirce

variable {K : Type*} [Field K]

/-- The sum of the products of the entries of two lists. -/
def dotL : List K → List K → K
  | a :: l, b :: m => a * b + dotL l m
  | _, _ => 0

/-- `a.dot(b)` of Eigen (used in soc_constraint.cc 88 and 120): both must have the same size. -/
def dot (a b : List K) : Outcome K :=
  if a.length = b.length then .ok (dotL a b) else .ub

/-- `x.tail(k)` of Eigen (used in soc_constraint.cc 88-92 and 120), with a signed count. -/
def tail (x : List K) (k : Int) : Outcome (List K) :=
  if 0 ≤ k ∧ k ≤ x.length then .ok (x.drop (x.length - k.toNat)) else .ub

/-- `x(0)` (soc_constraint.cc 87). -/
def first : List K → Outcome K
  | [] => .ub
  | a :: _ => .ok a

/-- soc_constraint.cc 89-90 and 91-92: a vector of `alloc` uninitialised entries gets its entry 0
and its last `k` entries.  The assignment of `v` to the last `k` entries needs equal sizes.  Every
entry is read in line 96, so one left uninitialised is undefined as well; simplified: it is
reported here. -/
def build (alloc : Nat) (k : Int) (h : K) (v : List K) : Outcome (List K) :=
  if (v.length : Int) = k ∧ k + 1 = alloc then .ok (h :: v) else .ub

/-- `a - b` of Eigen (soc_constraint.cc 96). -/
def sub (a b : List K) : Outcome (List K) :=
  if a.length = b.length then .ok (List.zipWith (· - ·) a b) else .ub

/-- `PeirceDecompType` (soc_constraint.cc 22-38). -/
structure Components (K : Type*) where
  x00 : List K
  x11 : List K
  x01 : List K
  deriving DecidableEq

/-- The statements of `TransformToPeirceComponents` (soc_constraint.cc 87-97) for a value of the
local `size` and a number `alloc` of entries of each component. -/
def transformSized (size : Int) (alloc : Nat) (q x : List K) : Outcome (Components K) := do
  let x0 ← first x
  let c0 := x0 / 2
  let xt ← tail x (size - 1)
  let d ← dot q xt
  let c1 := d / 2
  let x00 ← build alloc (size - 1) (c0 + c1) (q.map ((c0 + c1) * ·))
  let x11 ← build alloc (size - 1) (c0 - c1) (q.map ((c1 - c0) * ·))
  let r ← sub x x00
  let x01 ← sub r x11
  .ok ⟨x00, x11, x01⟩

/-- `TransformToPeirceComponents` (soc_constraint.cc 82-98): `size` is `n_`, and the constructor
of `PeirceDecompType` (line 22) allocates one entry more than the `x.rows()` it is given. -/
def transform (n : Nat) (q x : List K) : Outcome (Components K) :=
  transformSized n (x.length + 1) q x

/-- `EssentialVectorOfDiagonalPeirceComponents` (soc_constraint.cc 118-122). -/
def essential (n : Nat) (q z : List K) : Outcome (List K) := do
  let qt ← tail q (n - 1 : Int)
  let d ← dot qt z
  .ok (q.map (· * d))

end Verif.Peirce
