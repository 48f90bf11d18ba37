import Verif.Model.Outcome
import Mathlib.Data.Int.Notation
import Mathlib.Algebra.BigOperators.Group.List.Basic
import Mathlib.Algebra.Order.Ring.Int

/-!
# Model of conex/elimination_ordering.cc

The matrix of doubles is a function with integer values, of which the rows and columns below `N` are
used. Vertex numbers, which the code stores as doubles, are integers.
-/

namespace Verif.Elim

/-- State of `MaximumCardinalitySearch` (elimination_ordering.cc 113-116) together with the part of
`order` that has been written: `order` is filled from its last entry to its first, so that its head is
the vertex found last. -/
structure Mcs where
  notEliminated : Nat → Bool
  W : Nat → Nat
  order : List Nat

/-- `UpdateWeights` (elimination_ordering.cc 57-66): the loop visits every `i < N` once. -/
def updateWeights (N : Nat) (A : Nat → Nat → Int) (v : Nat) (W : Nat → Nat) : Nat → Nat := fun i =>
  if i < N ∧ i ≠ v ∧ A i v ≠ 0 then W i + 1 else W i

/-- `ArgMaxWeight` (elimination_ordering.cc 68-78). -/
def argMaxWeight (N : Nat) (s : Mcs) : Int :=
  ((List.range N).foldl
    (fun (m : Int × Int) i => if s.notEliminated i ∧ m.1 ≤ s.W i then ((s.W i : Int), (i : Int)) else m)
    (-1, -1)).2

/-- Initial state (`Initialize`, elimination_ordering.cc 101-104) and line 46. -/
def mcsStart (v : Nat) : Mcs := { notEliminated := fun _ => true, W := fun _ => 0, order := [v] }

/-- One pass of the loop (elimination_ordering.cc 47-52) with current vertex `v`. If no vertex is left
the position is -1, and the next access with it is out of range: `ub`. -/
def mcsStep (N : Nat) (A : Nat → Nat → Int) (v : Nat) (s : Mcs) : Outcome (Nat × Mcs) :=
  let s1 : Mcs :=
    { notEliminated := fun i => if i = v then false else s.notEliminated i
      W := updateWeights N A v s.W
      order := s.order }
  match argMaxWeight N s1 with
  | .ofNat p => .ok (p, { s1 with order := p :: s1.order })
  | .negSucc _ => .ub

/-- The loop of `FindOrder` (elimination_ordering.cc 47-52) after `i` passes. -/
def mcsLoop (N : Nat) (A : Nat → Nat → Int) (v : Nat) : Nat → Outcome (Nat × Mcs)
  | 0 => .ok (v, mcsStart v)
  | i + 1 => (mcsLoop N A v i).bind fun p => mcsStep N A p.1 p.2

/-- `FindOrder(v)` (elimination_ordering.cc 43-54). For an empty graph line 46 writes `order(-1)`. -/
def findOrder (N : Nat) (A : Nat → Nat → Int) (v : Nat) : Outcome (List Nat) :=
  if v < N then (mcsLoop N A v (N - 1)).bind fun p => .ok p.2.order else .ub

/-- `Degree` (elimination_ordering.cc 80-86). -/
def degree (N : Nat) (A : Nat → Nat → Int) (i : Nat) : Int := ((List.range N).map (A i)).sum - A i i

/-- `MaxDegreeVertex` (elimination_ordering.cc 88-99). For an empty graph line 91 reads `sums(0)`. -/
def maxDegreeVertex (N : Nat) (A : Nat → Nat → Int) : Outcome Nat :=
  if N = 0 then .ub
  else .ok ((List.range' 1 (N - 1)).foldl
    (fun (m : Nat × Int) i => if m.2 < degree N A i then (i, degree N A i) else m)
    (0, degree N A 0)).1

/-- `EliminationOrdering` (elimination_ordering.cc 269-278, `FindOrder()` 38-41): the indices of the
permutation. -/
def eliminationOrdering (N : Nat) (A : Nat → Nat → Int) : Outcome (List Nat) :=
  (maxDegreeVertex N A).bind fun v => findOrder N A v

/-- `keep` of `submat` (elimination_ordering.cc 121-132), relative to `node`. -/
def keep (N : Nat) (A : Nat → Nat → Int) (node : Nat) : List Nat :=
  (List.range (N - node)).filter fun i => A node (node + i) ≠ 0

/-- Entry `(i, j)` of the matrix returned by `submat` (elimination_ordering.cc 134-149). -/
def submat (N : Nat) (A : Nat → Nat → Int) (node i j : Nat) : Int :=
  if i = j then 1
  else A (node + (keep N A node).getD i 0) (node + (keep N A node).getD j 0)

/-- The test of elimination_ordering.cc 165 and 252: `rows² - trace(S Sᵀ) = 0`. -/
def passTest (N : Nat) (A : Nat → Nat → Int) (node : Nat) : Bool :=
  let r := (keep N A node).length
  decide ((r : Int) * r - ((List.range r).map fun i =>
    ((List.range r).map fun j => submat N A node i j * submat N A node i j).sum).sum = 0)

/-- `IsPerfectlyOrdered` (elimination_ordering.cc 152-168). -/
def isPerfectlyOrdered (N : Nat) (A : Nat → Nat → Int) : Bool :=
  let G := fun i j => if A i j ≠ 0 then (1 : Int) else 0
  (List.range N).foldl (fun pass i => pass && passTest N G i) true

/-- `P2ᵀ G P2` (elimination_ordering.cc 243-249). -/
def permuted (G : Nat → Nat → Int) (order : List Nat) (i j : Nat) : Int :=
  G (order.getD i 0) (order.getD j 0)

/-- First vertex that fails the test in the loop of `IsChordal` (elimination_ordering.cc 250-263). -/
def firstFailure (N : Nat) (Gp : Nat → Nat → Int) : Option Nat :=
  (List.range N).find? fun i => !passTest N Gp i

/-- `IsChordal` without a path argument (elimination_ordering.cc 239-267). -/
def isChordal (N : Nat) (G : Nat → Nat → Int) : Outcome Bool :=
  (findOrder N G 0).bind fun order =>
  match firstFailure N (permuted G order) with
  | some _ => .ok false
  | none => .ok true

/-- `MaximumDegreeVertices` (elimination_ordering.cc 280-300). -/
def maximumDegreeVertices (N : Nat) (G : Nat → Nat → Int) : Outcome (List Nat) :=
  if N = 0 then .ub
  else
    let sum := fun i => ((List.range N).map (G i)).sum
    .ok ((List.range' 1 (N - 1)).foldl
      (fun (m : List Nat × Int) i =>
        if m.2 ≤ sum i then ((if m.2 < sum i then [] else m.1) ++ [i], sum i) else m)
      ([], sum 0)).1

/-- The pairs `(i, j)` of positions visited by elimination_ordering.cc 192-207, in order. -/
def chordPairs (len w : Nat) : List (Nat × Nat) :=
  (List.range len).flatMap fun i =>
    if i = w then []
    else ((List.range' (i + 1) (len - (i + 1))).filter fun j => j ≠ w).map fun j => (i, j)

/-- elimination_ordering.cc 192-207: the choice of `x` and `y`, initially -1. -/
def chooseXY (A : Nat → Nat → Int) (indices : List Nat) (w : Nat) : Int × Int :=
  (chordPairs indices.length w).foldl (fun xy p =>
    let i := indices.getD p.1 0
    let j := indices.getD p.2 0
    if A w j ≠ 0 ∧ A w i ≠ 0 ∧ A i j = 0 ∧ xy.1 < i then ((i : Int), (j : Int)) else xy) (-1, -1)

/-- `ExtractChordlessPath` (elimination_ordering.cc 170-237). Reading with column -1 is `ub`; the last
entry of the result is -1 if no vertex qualifies. -/
def extractChordlessPath (N : Nat) (A : Nat → Nat → Int) (rel : List Nat) (w : Nat) :
    Outcome (List Int) :=
  match chooseXY A (rel.map (· + w)) w with
  | (.ofNat x, y) =>
    match (List.range N).find? fun i => A i w = 0 ∧ 0 < A i x with
    | none => .ub
    | some z =>
      match (List.range N).find? fun i => i ≠ w ∧ i ≠ x ∧ (i : Int) ≠ y ∧ 0 < A i z with
      | none => .ok [w, x, y, -1]
      | some v => .ok [w, x, y, v]
  | (.negSucc _, _) => .ub

/-- `IsChordal` with a path argument (elimination_ordering.cc 239-265). -/
def isChordalPath (N : Nat) (G : Nat → Nat → Int) : Outcome (Bool × List Int) :=
  (findOrder N G 0).bind fun order =>
  match firstFailure N (permuted G order) with
  | none => .ok (true, [])
  | some i =>
    (extractChordlessPath N (permuted G order) (keep N (permuted G order) i) i).bind fun path =>
    .ok (false, path)

end Verif.Elim
