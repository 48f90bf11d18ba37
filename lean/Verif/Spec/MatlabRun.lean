import Verif.Spec.Matlab
import Verif.Model.MatlabRun
import Mathlib.Algebra.Order.Ring.Rat
import Mathlib.Algebra.Field.Rat

/-!
# What the MATLAB function `conex` should return
-/

namespace Verif.Matlab.Spec

open scoped BigOperators

/-- The matrix `affine - ∑ y(v) mats(v)` of an inequality. -/
noncomputable def slack (L : Lmi ℝ) (y : Nat → ℝ) : Matrix (Fin L.n) (Fin L.n) ℝ :=
  Matrix.of fun i j => L.affine i j - ∑ v ∈ Finset.range L.vars.length, L.mats v i j * y (L.vars.getD v 0)

/-- The sum of the products of the entries of two matrices of order `n`; the second is stored by columns. -/
noncomputable def pairing (n : Nat) (B : Nat → Nat → ℝ) (X : Nat → ℝ) : ℝ :=
  ∑ j ∈ Finset.range n, ∑ i ∈ Finset.range n, B i j * X (i + n * j)

/-- `y` and the matrices `X` solve the pair of problems: maximise `b' y` such that the matrices of the inequalities
are positive semidefinite, and its dual. -/
structure LmiSolution (m : Nat) (Ls : List (Lmi ℝ)) (b y : Nat → ℝ) (X : Nat → Nat → ℝ) : Prop where
  slack : ∀ L ∈ Ls, (slack L y).PosSemidef
  psd : ∀ k L, Ls[k]? = some L → (Matrix.of fun i j : Fin L.n => X k (i + L.n * j)).PosSemidef
  eqs : ∀ r < m, (Ls.mapIdx fun k L => ∑ v ∈ Finset.range L.vars.length,
    if L.vars.getD v 0 = r then pairing L.n (L.mats v) (X k) else 0).sum = b r
  gap : (Ls.mapIdx fun k L => pairing L.n L.affine (X k)).sum = ∑ r ∈ Finset.range m, b r * y r

/-- What is asked of the library: if it reports success then its answer is a solution. -/
def Right (sol : Solver ℝ) : Prop := ∀ m Ls b, (sol m Ls b).1 = true →
  LmiSolution m Ls b (sol m Ls b).2.1 (sol m Ls b).2.2

/-- `x` and `y` solve the program, with `f` free variables, and its dual. -/
structure Optimal (P : Prob ℝ) (f : Nat) (x y : Nat → ℝ) : Prop where
  primal : FreePrimalFeasible P f x
  dual : FreeDualFeasible P f y
  least : ∀ x', FreePrimalFeasible P f x' → primalCost P x ≤ primalCost P x'
  greatest : ∀ y', FreeDualFeasible P f y' → dualCost P y' ≤ dualCost P y
  gap : primalCost P x = dualCost P y

/-- The cone has no variables in an orthant or in Lorentz cones. -/
def OnlyMatrices (K : ConeBase.RawCone) : Prop :=
  (∀ n, K.l = some (some n) → n = 0) ∧ (∀ q, K.q = some q → ∀ n ∈ q, n = 0) ∧ (∀ r, K.r = some r → ∀ n ∈ r, n = 0)

/-- The cone has an orthant, or Lorentz cones all of which have variables, or rotated ones all of which have
variables. -/
def HasOthers (K : ConeBase.RawCone) : Prop :=
  (∃ n, K.l = some (some n) ∧ 0 < n) ∨ (∃ q, K.q = some q ∧ q ≠ [] ∧ ∀ n ∈ q, 0 < n) ∨
    (∃ r, K.r = some r ∧ r ≠ [] ∧ ∀ n ∈ r, 0 < n)

/-- `LmiSolution` for inequalities of order 1 over the rational numbers. -/
def ScalarSolution (m : Nat) (Ls : List (Lmi ℚ)) (b y : Nat → ℚ) (X : Nat → ℚ) : Prop :=
  (∀ L ∈ Ls, L.n = 1 ∧
    0 ≤ L.affine 0 0 - ((List.range L.vars.length).map fun v => L.mats v 0 0 * y (L.vars.getD v 0)).sum) ∧
  (∀ k ∈ List.range Ls.length, 0 ≤ X k) ∧
  (∀ r ∈ List.range m, (Ls.mapIdx fun k L => ((List.range L.vars.length).map fun v =>
    if L.vars.getD v 0 = r then L.mats v 0 0 * X k else 0).sum).sum = b r) ∧
  (Ls.mapIdx fun k L => L.affine 0 0 * X k).sum = ((List.range m).map fun r => b r * y r).sum

instance (m : Nat) (Ls : List (Lmi ℚ)) (b y : Nat → ℚ) (X : Nat → ℚ) : Decidable (ScalarSolution m Ls b y X) := by
  unfold ScalarSolution
  infer_instance

end Verif.Matlab.Spec
