import Mathlib.Data.List.Sort

/-!
# Model of the sorted-range algorithms of the C++ standard library used by conex

`std::set_intersection`, `std::set_difference` and `std::set_union` on sorted ranges without
duplicates, as used in conex/supernodal_solver.cc (`IntersectionOfSorted` 240-245,
`UnionOfSorted` 356-361) and conex/clique_ordering.cc 235-237. The merge loop of the library is
written by structural recursion on the first range; elements of the second range that are smaller
than the current element are consumed with `dropWhile`.
-/

namespace Verif

/-- `std::set_intersection` (supernodal_solver.cc 240-245). -/
def setInter : List Nat → List Nat → List Nat
  | [], _ => []
  | a :: as, bs =>
    match bs.dropWhile (· < a) with
    | [] => []
    | b :: bs' => if b = a then a :: setInter as bs' else setInter as (b :: bs')

/-- `std::set_difference` (clique_ordering.cc 235-237). -/
def setDiff : List Nat → List Nat → List Nat
  | [], _ => []
  | a :: as, bs =>
    match bs.dropWhile (· < a) with
    | [] => a :: as
    | b :: bs' => if b = a then setDiff as bs' else a :: setDiff as (b :: bs')

/-- `std::set_union` (supernodal_solver.cc 356-361). -/
def setUnion : List Nat → List Nat → List Nat
  | [], bs => bs
  | a :: as, bs =>
    bs.takeWhile (· < a) ++
    match bs.dropWhile (· < a) with
    | [] => a :: as
    | b :: bs' => if b = a then a :: setUnion as bs' else a :: setUnion as (b :: bs')

/-- `std::sort` on `int`s (supernodal_solver.cc 258-262). -/
def sortNat (l : List Nat) : List Nat := l.insertionSort (· ≤ ·)

end Verif
