import Verif.Model.Matlab
import Mathlib.Algebra.BigOperators.Ring.Finset

/-!
# What the extraction of constraint matrices should give
-/

namespace Verif.Matlab.Spec

open scoped BigOperators

variable {R : Type} [Field R]

/-- The inequality `L` stands for the block of order `n` at `off`: for every `y` the matrix
`affine - ∑ y(v) mats(v)` consists of the entries of `c - A' y`. -/
structure StandsFor (m : Nat) (A : Nat → Nat → R) (c : Nat → R) (n off : Nat) (L : Lmi R) : Prop where
  order : L.n = n
  nodup : L.vars.Nodup
  lt : ∀ v ∈ L.vars, v < m
  slack : ∀ (y : Nat → R) (i j : Nat), i < n → j < n →
    L.affine i j - ∑ v ∈ Finset.range L.vars.length, L.mats v i j * y (L.vars.getD v 0) =
      c (off + (i + n * j)) - ∑ r ∈ Finset.range m, A r (off + (i + n * j)) * y r

/-- There is one inequality for each block, and it stands for that block. -/
def AllStand (m : Nat) (A : Nat → Nat → R) (c : Nat → R) : List Nat → Nat → List (Lmi R) → Prop
  | [], _, [] => True
  | n :: ns, off, L :: Ls => StandsFor m A c n off L ∧ AllStand m A c ns (off + n * n) Ls
  | _, _, _ => False

/-- Some entry of the `n` columns from `off` on is not 0. -/
def Filled (m : Nat) (A : Nat → Nat → R) (off n : Nat) : Prop :=
  ∃ i k, i < m ∧ off ≤ k ∧ k < off + n ∧ A i k ≠ 0

/-- No block without entries comes before one with entries. -/
def NoGap (m : Nat) (A : Nat → Nat → R) : List Nat → Nat → Prop
  | [], _ => True
  | n :: ns, off => (Filled m A off (n * n) ∧ NoGap m A ns (off + n * n)) ∨
    ∀ i k, i < m → off ≤ k → k < off + numVar (n :: ns) → A i k = 0

end Verif.Matlab.Spec
