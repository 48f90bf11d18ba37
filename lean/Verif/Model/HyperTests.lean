import Verif.Model.Hyper
import Mathlib.Algebra.Order.Field.Basic
import Mathlib.Algebra.BigOperators.Fin

/-!
# The comparisons of matrices of hypercomplex numbers

`/repo/conex/jordan_matrix_algebra.cc` 177-201: `IsEqual` and `IsHermitian`.  An entry is `none` if
it is NaN; other entries are exact.  Both functions compare a norm with a tolerance; the model
compares the squares, which is the same for a positive tolerance.  Sizes are part of the type.
-/

namespace Verif.HyperTests

open Verif.Hyper Finset

variable {K : Type} [Field K] [LinearOrder K]

/-- `a - b` of two doubles of which each may be NaN. -/
def subN : Option K → Option K → Option K
  | some a, some b => some (a - b)
  | _, _ => none

/-- `a + b` of two doubles of which each may be NaN. -/
def addN : Option K → Option K → Option K
  | some a, some b => some (a + b)
  | _, _ => none

/-- The square of `M.norm()`: NaN if an entry is NaN. -/
def normSq {m k : Nat} (M : Fin m → Fin k → Option K) : Option K :=
  if ∀ r c, (M r c).isSome then some (∑ r, ∑ c, (M r c).getD 0 * (M r c).getD 0) else none

/-- `norm > eps`, given the square of the norm: a comparison with NaN is false. -/
def exceeds (s : Option K) (eps : K) : Bool :=
  match s with
  | some v => decide (eps * eps < v)
  | none => false

/-- `IsEqual`, `/repo/conex/jordan_matrix_algebra.cc` 178-187. -/
def isEqual {d m k : Nat} (x y : Hyp d (Fin m) (Fin k) (Option K)) : Bool :=
  (List.finRange d).all fun i =>
    !exceeds (normSq fun r c => subN (x i r c) (y i r c)) (1 / 10 ^ 8)

/-- `IsHermitian`, `/repo/conex/jordan_matrix_algebra.cc` 189-201.  Component 0 is tested first;
the order of the tests does not change the result. -/
def isHermitian {d m : Nat} (w : Hyp d (Fin m) (Fin m) (Option K)) : Bool :=
  (List.finRange d).all fun i =>
    !exceeds
      (normSq fun r c => if i.1 = 0 then subN (w i r c) (w i c r) else addN (w i r c) (w i c r))
      (1 / 10 ^ 12)

end Verif.HyperTests
