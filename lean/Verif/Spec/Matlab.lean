import Verif.Model.Matlab
import Mathlib.LinearAlgebra.Matrix.PosDef

/-!
# What the preprocessing of the MATLAB interface should preserve
-/

namespace Verif.Matlab.Spec

open scoped BigOperators

/-- The vector consists, from `off` on, of positive semidefinite matrices of the orders `s`, stored by
columns. -/
def Cone : List Nat → Nat → (Nat → ℝ) → Prop
  | [], _, _ => True
  | n :: ns, off, x =>
    (Matrix.of fun i j : Fin n => x (off + (i + n * j))).PosSemidef ∧ Cone ns (off + n * n) x

/-- `A x = b` and `x` in the cone. -/
def PrimalFeasible (P : Prob ℝ) (x : Nat → ℝ) : Prop :=
  (∀ i < P.m, ∑ j ∈ Finset.range P.N, P.A i j * x j = P.b i) ∧ Cone P.s 0 x

/-- `c' x`. -/
noncomputable def primalCost (P : Prob ℝ) (x : Nat → ℝ) : ℝ := ∑ j ∈ Finset.range P.N, P.c j * x j

/-- The symmetric parts of the matrices are positive semidefinite. -/
def DualCone : List Nat → Nat → (Nat → ℝ) → Prop
  | [], _, _ => True
  | n :: ns, off, x =>
    (Matrix.of fun i j : Fin n => (x (off + (i + n * j)) + x (off + (j + n * i))) / 2).PosSemidef ∧
      DualCone ns (off + n * n) x

/-- `c - A' y` in the dual cone. -/
def DualFeasible (P : Prob ℝ) (y : Nat → ℝ) : Prop :=
  DualCone P.s 0 fun j => P.c j - ∑ i ∈ Finset.range P.m, P.A i j * y i

/-- `b' y`. -/
noncomputable def dualCost (P : Prob ℝ) (y : Nat → ℝ) : ℝ := ∑ i ∈ Finset.range P.m, P.b i * y i

/-- The reduced program `Q` stands for `P`: solutions of either problem become solutions of the other, with
the same value, for the problem and for its dual. -/
structure Faithful (P Q : Prob ℝ) (primal dual : (Nat → ℝ) → Nat → ℝ) : Prop where
  primal_back : ∀ x, PrimalFeasible Q x → PrimalFeasible P (primal x) ∧
    primalCost P (primal x) = primalCost Q x
  dual_back : ∀ y, DualFeasible Q y → DualFeasible P (dual y) ∧ dualCost P (dual y) = dualCost Q y
  primal_forth : ∀ x, PrimalFeasible P x → ∃ x', PrimalFeasible Q x' ∧ primalCost Q x' = primalCost P x
  dual_forth : ∀ y, DualFeasible P y → ∃ y', DualFeasible Q y' ∧ dualCost Q y' = dualCost P y

/-! ### Free variables -/

/-- `A x = b`, and `x` from `f` on in the cone. -/
def FreePrimalFeasible (P : Prob ℝ) (f : Nat) (x : Nat → ℝ) : Prop :=
  (∀ i < P.m, ∑ j ∈ Finset.range P.N, P.A i j * x j = P.b i) ∧ Cone P.s f x

/-- `c - A' y` is 0 for the free variables and in the dual cone from `f` on. -/
def FreeDualFeasible (P : Prob ℝ) (f : Nat) (y : Nat → ℝ) : Prop :=
  (∀ j < f, ∑ i ∈ Finset.range P.m, P.A i j * y i = P.c j) ∧
    DualCone P.s f fun j => P.c j - ∑ i ∈ Finset.range P.m, P.A i j * y i

/-- The program `Q`, with `g` free variables, stands for `P`, with `f` free variables: solutions of either
problem become solutions of the other, for the problem and for its dual; the values differ by `shift`. -/
structure FreeFaithful (P : Prob ℝ) (f : Nat) (Q : Prob ℝ) (g : Nat) (shift : ℝ)
    (primal dual : (Nat → ℝ) → Nat → ℝ) : Prop where
  primal_back : ∀ x, FreePrimalFeasible Q g x → FreePrimalFeasible P f (primal x) ∧
    primalCost P (primal x) = primalCost Q x + shift
  dual_back : ∀ y, FreeDualFeasible Q g y → FreeDualFeasible P f (dual y) ∧
    dualCost P (dual y) = dualCost Q y + shift
  primal_forth : ∀ x, FreePrimalFeasible P f x → ∃ x', FreePrimalFeasible Q g x' ∧
    primalCost Q x' + shift = primalCost P x
  dual_forth : ∀ y, FreeDualFeasible P f y → ∃ y', FreeDualFeasible Q g y' ∧
    dualCost Q y' + shift = dualCost P y

/-- What is assumed of `A\b`: it solves the equations if they have a solution. -/
def SolveOk (la : LinAlg ℝ) : Prop := ∀ (r c : Nat) (A : Nat → Nat → ℝ) (v : Nat → ℝ),
  (∃ z : Nat → ℝ, ∀ i < r, ∑ j ∈ Finset.range c, A i j * z j = v i) →
    ∀ i < r, ∑ j ∈ Finset.range c, A i j * la.solve r c A v j = v i

/-- What is assumed of `spnull`: its columns span the null space. -/
def NullOk (la : LinAlg ℝ) : Prop := ∀ (r c : Nat) (A : Nat → Nat → ℝ),
  (∀ q < (la.null r c A).1, ∀ i < r, ∑ j ∈ Finset.range c, A i j * (la.null r c A).2 j q = 0) ∧
  ∀ z : Nat → ℝ, (∀ i < r, ∑ j ∈ Finset.range c, A i j * z j = 0) →
    ∃ w : Nat → ℝ, ∀ j < c, z j = ∑ q ∈ Finset.range (la.null r c A).1, (la.null r c A).2 j q * w q

end Verif.Matlab.Spec
