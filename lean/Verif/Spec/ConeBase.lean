import Verif.Model.ConeBase
import Verif.Spec.Matlab
import Mathlib.Algebra.BigOperators.Group.Finset.Defs
import Mathlib.Order.Interval.Finset.Nat

/-!
# What the class `coneBase` should compute

Indices start at 1.
-/

namespace Verif.ConeBase.Spec

open scoped BigOperators

/-- The number of variables. -/
def dim (K : Cone) : Nat := K.f + K.l + K.q.sum + K.r.sum + (K.s.map fun n => n ^ 2).sum

/-- The number of variables before the semidefinite cones. -/
def before (K : Cone) : Nat := K.f + K.l + K.q.sum + K.r.sum

/-- Lorentz cones one after the other, the first from the index `a` on: the first entry is at least the length of
the others. -/
def Lorentz : List Nat → Nat → (Nat → ℝ) → Prop
  | [], _, _ => True
  | n :: ns, a, x =>
    (0 < n → 0 ≤ x a ∧ ∑ k ∈ Finset.Ico (a + 1) (a + n), x k ^ 2 ≤ x a ^ 2) ∧ Lorentz ns (a + n) x

/-- Rotated Lorentz cones one after the other: twice the product of the first two entries, which are nonnegative, is
at least the square of the length of the others. -/
def Rotated : List Nat → Nat → (Nat → ℝ) → Prop
  | [], _, _ => True
  | n :: ns, a, x =>
    (0 < n → 0 ≤ x a ∧ 0 ≤ x (a + 1) ∧ ∑ k ∈ Finset.Ico (a + 2) (a + n), x k ^ 2 ≤ 2 * x a * x (a + 1)) ∧
      Rotated ns (a + n) x

/-- The cone. -/
structure InCone (K : Cone) (x : Nat → ℝ) : Prop where
  nonneg : ∀ i, K.f < i → i ≤ K.f + K.l → 0 ≤ x i
  lorentz : Lorentz K.q (K.f + K.l + 1) x
  rotated : Rotated K.r (K.f + K.l + K.q.sum + 1) x
  psd : Matlab.Spec.Cone K.s (before K + 1) x

/-- The matrices, of the orders given and by columns from the index `a` on, are symmetric. -/
def Symmetric : List Nat → Nat → (Nat → ℝ) → Prop
  | [], _, _ => True
  | n :: ns, a, x => (∀ i < n, ∀ j < n, x (a + (i + n * j)) = x (a + (j + n * i))) ∧ Symmetric ns (a + n * n) x

/-- The indices of the entries above the diagonals. -/
def Above : List Nat → Nat → Nat → Prop
  | [], _, _ => False
  | n :: ns, a, k => (∃ i j, i < j ∧ j < n ∧ k = a + (i + n * j)) ∨ Above ns (a + n * n) k

/-- The indices of the entries on the diagonals. -/
def OnDiagonal : List Nat → Nat → Nat → Prop
  | [], _, _ => False
  | n :: ns, a, k => (∃ i < n, k = a + (i + n * i)) ∨ OnDiagonal ns (a + n * n) k

/-- The inner product. -/
noncomputable def inner (K : Cone) (x y : Nat → ℝ) : ℝ := ∑ k ∈ Finset.Icc 1 (dim K), x k * y k

/-- The inner product of lists. -/
noncomputable def dot (u v : List ℝ) : ℝ := (List.zipWith (· * ·) u v).sum

/-- The consecutive ranges from `starts` to `ends`. -/
def ranges (starts ends : List Nat) : List Nat :=
  (List.zipWith (fun a b => List.range' a (b + 1 - a)) starts ends).flatten

end Verif.ConeBase.Spec
