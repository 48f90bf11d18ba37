import Mathlib.Data.Int.Notation
import Mathlib.Algebra.Order.Ring.Int
import Mathlib.Data.List.Perm.Basic

/-!
# Specification for C22-C24: perfect elimination orderings and chordal graphs

A graph on the vertices `0, …, n - 1` is given by its adjacency relation.
-/

namespace Verif.Elim.Spec

/-- The graph of a matrix: `i` and `j` are adjacent if the entry is not zero. -/
def Adj (A : Nat → Nat → Int) (i j : Nat) : Prop := A i j ≠ 0

/-- The order `0, 1, …, n - 1` is a perfect elimination order: the later neighbours of every vertex are
pairwise adjacent. -/
def PerfectOrder (adj : Nat → Nat → Prop) (n : Nat) : Prop :=
  ∀ i j k, i < j → i < k → j < n → k < n → j ≠ k → adj i j → adj i k → adj j k

/-- `c 0, …, c (m - 1)` is a cycle of the graph. -/
def IsCycle (adj : Nat → Nat → Prop) (n m : Nat) (c : Nat → Nat) : Prop :=
  (∀ i, i < m → c i < n) ∧ (∀ i j, i < m → j < m → c i = c j → i = j) ∧
  (∀ i, i + 1 < m → adj (c i) (c (i + 1))) ∧ adj (c (m - 1)) (c 0)

/-- An edge between two vertices that are not neighbours on the cycle. -/
def HasChord (adj : Nat → Nat → Prop) (m : Nat) (c : Nat → Nat) : Prop :=
  ∃ i j, i < j ∧ j < m ∧ j ≠ i + 1 ∧ ¬ (i = 0 ∧ j = m - 1) ∧ adj (c i) (c j)

/-- Every cycle of length at least four has a chord. -/
def Chordal (adj : Nat → Nat → Prop) (n : Nat) : Prop :=
  ∀ m c, 4 ≤ m → IsCycle adj n m c → HasChord adj m c

/-- Number of neighbours of `u` among the vertices of a list. -/
def nbrs (A : Nat → Nat → Int) (u : Nat) (l : List Nat) : Nat := (l.filter fun c => A u c ≠ 0).length

end Verif.Elim.Spec
