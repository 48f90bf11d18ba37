import Mathlib.Algebra.BigOperators.Group.Finset.Basic
import Mathlib.Algebra.Field.Basic
import Mathlib.Order.Interval.Finset.Nat
import Mathlib.Algebra.Order.Field.Basic
import Mathlib.Algebra.Order.Group.Unbundled.Abs
import Mathlib.Logic.Equiv.Basic
import Mathlib.Algebra.Group.End
import Verif.Model.Outcome

/-!
# Dense factorisations and substitutions

`RLDLT` (conex/RLDLT.h) is modelled in full. Dense triangular substitution and dense `LLT` belong to
Eigen, not to /repo: substitution is given by the textbook recursion, and `LLT` is a parameter of the
model (`Spec.LltContract` states what is assumed about it). A dense matrix is a function of row and
column; only its lower triangle is meaningful. Scalars are exact.
-/

namespace Verif.Dense

open Finset

variable {R : Type} [Field R]

/-- `triangularView<Lower>().solveInPlace(y)` for the leading `n` rows (used at
block_triangular_operations.cc 169, 181, 206, 273, 287, 333): forward substitution in place. -/
def fsub (L : Nat → Nat → R) : Nat → (Nat → R) → Nat → R
  | 0, y => y
  | n + 1, y =>
    let x := fsub L n y
    fun i => if i = n then (y n - ∑ c ∈ range n, L n c * x c) / L n n else x i

/-- `triangularView<Lower>().transpose().solveInPlace(y)` for an `n × n` block (used at
block_triangular_operations.cc 125-128, 148, 228, 259): the last `t` unknowns are done. -/
def bsubAux (L : Nat → Nat → R) (n : Nat) : Nat → (Nat → R) → Nat → R
  | 0, y => y
  | t + 1, y =>
    let x := bsubAux L n t y
    let r := n - 1 - t
    fun i => if i = r then (y r - ∑ c ∈ Ico (r + 1) n, L c r * x c) / L r r else x i

/-- Backward substitution with the transpose of the lower triangle of `L`. -/
def bsub (L : Nat → Nat → R) (n : Nat) (y : Nat → R) : Nat → R := bsubAux L n n y

/-- `matrixL()` of an `LDLT` object (RLDLT.h 152-155 with `LDLT_Traits`): the unit lower triangle. -/
def unitLower (m : Nat → Nat → R) (i j : Nat) : R := if j < i then m i j else if i = j then 1 else 0

section RLDLT

variable [LinearOrder R]

/-- `regularization_value` and the pivot threshold `1e-9` (RLDLT.h 310, 382, 387-391). -/
def eps : R := 1 / 1000000000

/-- Result of `rldlt_inplace<Lower>::unblocked` (RLDLT.h 299-430): the matrix after the in-place
factorisation, the transpositions, and the returned flag (`false`: regularised). `reg` is not in the
code: it records whether some pivot was replaced. The sign of the matrix is
not modelled here (see Model/RankUpdate). -/
structure Ldlt (R : Type) where
  mat : Nat → Nat → R
  tr : List Nat
  ret : Bool
  reg : Bool

/-- Position of the first largest diagonal entry from `k` on (RLDLT.h 333-337). -/
def pivotIndex (size k : Nat) (m : Nat → Nat → R) : Nat :=
  (List.range' k (size - k)).foldl (fun best i => if |m best best| < |m i i| then i else best) k

/-- RLDLT.h 340-358: exchange index `k` with index `p > k`, touching only the lower triangle. The four
exchanges touch disjoint sets of entries: the rows left of column `k`, the columns below row `p`,
the two diagonal entries, and the entries `(i, k)`, `(p, i)` for `k < i < p`. -/
def pivotSwap (size k p : Nat) (m : Nat → Nat → R) : Nat → Nat → R :=
  if k = p then m
  else
    let m1 := fun i j => if j < k then (if i = k then m p j else if i = p then m k j else m i j)
      else m i j
    let m2 := fun i j => if p < i ∧ i < size then
        (if j = k then m1 i p else if j = p then m1 i k else m1 i j) else m1 i j
    let m3 := fun i j => if i = k ∧ j = k then m2 p p else if i = p ∧ j = p then m2 k k else m2 i j
    fun i j => if j = k ∧ k < i ∧ i < p then m3 p i
      else if i = p ∧ k < j ∧ j < p then m3 j k else m3 i j

/-- Entry `(k, k)` after the update with the finished columns (RLDLT.h 369-372). -/
def schurPivot (k : Nat) (m : Nat → Nat → R) : R :=
  m k k - ∑ j ∈ range k, m k j * (m j j * m k j)

/-- RLDLT.h 381-393: a pivot that is not larger than the threshold is replaced. -/
def pivotReg (akk : R) : R := if eps < |akk| then akk else if akk < 0 then -eps else eps

/-- Column `k` below the pivot (RLDLT.h 369-373 and 408-409). -/
def eliminateCol (size k : Nat) (m : Nat → Nat → R) (piv : R) : Nat → Nat → R := fun i j =>
  if j = k then
    if i = k then piv
    else if k < i ∧ i < size then (m i k - ∑ l ∈ range k, m i l * (m l l * m k l)) / piv
    else m i j
  else m i j

/-- One pass of the loop (RLDLT.h 332-427). `pivot_is_valid` is always true after lines 384-393, so
that the branches at 395-406, 410-411 and 413-416 are dead. -/
def ldltStep (size k : Nat) (s : Ldlt R) : Ldlt R :=
  let p := pivotIndex size k s.mat
  let m := pivotSwap size k p s.mat
  let akk := schurPivot k m
  { mat := eliminateCol size k m (pivotReg akk)
    tr := s.tr ++ [p]
    ret := s.ret && decide (eps < |akk|)
    reg := s.reg || !decide (eps < |akk|) }

/-- The loop of RLDLT.h 332-427 after `k` passes. -/
def ldltLoop (size : Nat) (m : Nat → Nat → R) : Nat → Ldlt R
  | 0 => { mat := m, tr := [], ret := true, reg := false }
  | k + 1 => ldltStep size k (ldltLoop size m k)

/-- `unblocked` (RLDLT.h 299-430) as called by `compute` (539-572). A `1 × 1` matrix is handled
separately and never reports regularisation. For an empty matrix line 313 reads (and line 315 or 317
may write) entry `(0, 0)`, which does not exist: `ub`. -/
def ldlt (size : Nat) (m : Nat → Nat → R) : Outcome (Ldlt R) :=
  match size with
  | 0 => .ub
  | 1 =>
    let small := decide (|m 0 0| < eps)
    .ok { mat := fun i j => if i = 0 ∧ j = 0 ∧ small then (if m 0 0 < 0 then -eps else eps) else m i j
          tr := [0]
          ret := true
          reg := small }
  | n + 2 => .ok (ldltLoop (n + 2) m (n + 2))

end RLDLT

/-- The permutation of a list of transpositions: entry `i` of `P * b` is `b (permOf tr i)`, where `P`
applies the exchanges `k ↔ tr[k]` for increasing `k` (Eigen `Transpositions`). -/
def permOf (tr : List Nat) : Equiv.Perm Nat := (tr.zipIdx.map fun p => Equiv.swap p.2 p.1).prod

end Verif.Dense
