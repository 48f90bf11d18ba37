import Verif.Spec.MatrixPath

/-!
# Specification of interior points of programs with matrix inequalities (C98)
-/

namespace Verif.MatrixCentering.Spec

open Finset Verif.Dual ConeCentering.Spec
open Whole.Spec (nth)

/-- A dual point of a constraint: an element for every cell, or a matrix of the order of the inequality, with
`d` components for each entry over the complex numbers and the quaternions. -/
structure Point where
  cell : Nat → Soc.El ℝ
  matrix : (m : Nat) → Matrix (Fin m) (Fin m) ℝ
  hyper : (d m : Nat) → HermLmi.HMat d m ℝ

/-- Hermitian, and `v* X v` is nonnegative for all columns. -/
def HyperPosSemidef {d m : Nat} (X : HermLmi.HMat d m ℝ) : Prop :=
  Hyper.Spec.Hermitian X ∧ ∀ v, 0 ≤ HermLmi.Spec.form X v

/-- The dual point is an interior point of the cone. -/
def Positive (x : Item ℝ) (X : Point) : Prop :=
  match x with
  | .lmi m _ _ => (X.matrix m).PosDef
  | .hermitian d m _ _ _ => HermLmi.Spec.PosDef (X.hyper d m)
  | x => ∀ r < cells x, Spin.Spec.Interior (form x) (X.cell r)

/-- `A' X` at variable `j`. -/
noncomputable def pull (x : Item ℝ) (X : Point) (j : Nat) : ℝ :=
  match x with
  | .lmi m o _ => (o.A j * X.matrix m).trace
  | .hermitian d m _ o _ => HermLmi.Spec.inner (o.mats.getD j fun _ => 0) (X.hyper d m)
  | x => ∑ r ∈ range (cells x), pair x (column x r j) (X.cell r)

/-- The inner product of the dual point and the slack of `y`. -/
noncomputable def product (x : Item ℝ) (len : Nat) (c : ℝ) (y : Nat → ℝ) (X : Point) : ℝ :=
  match x with
  | .lmi m o _ => (X.matrix m * Lmi.Spec.slack o c y).trace
  | .hermitian d m _ o _ => HermLmi.Spec.inner (X.hyper d m) (hyperSlack o c y)
  | x => ∑ r ∈ range (cells x), pair x (X.cell r) (cellSlack x len c y r)

/-- The inner product of all dual points and slacks. -/
noncomputable def products (es : List (Entry ℝ)) (c : ℝ) (y : Nat → ℝ) (X : Nat → Point) : ℝ :=
  ∑ i ∈ range es.length, product (nth es i).item (nth es i).vars.length c (unknowns (nth es i) y) (X i)

/-- The program and its dual have interior points: the slacks of `y` are, and so is `X`, with `A' X + Q w = g`. -/
structure Strict (es : List (Entry ℝ)) (N : Nat) (g : Nat → ℝ) (c : ℝ) (y : Nat → ℝ) (X : Nat → Point)
    (w : Nat → ℝ) : Prop where
  primal : ∀ e ∈ es, Inside e.item e.vars.length c (unknowns e y)
  dual : ∀ i < es.length, Positive (nth es i).item (X i)
  equations : ∀ u < N, ∑ i ∈ range es.length, Sup.Spec.ventry (nth es i).vars (fun j => pull (nth es i).item (X i) j +
    Centering.Spec.gradient (unknowns (nth es i) w) (nth es i).item j) u = g u

/-- `a W` is at most the dual point, in the order of the cone, where `W` is the scaling point. -/
def DualAbove (a : ℝ) (x : Item ℝ) (X : Point) : Prop :=
  match x with
  | .lmi m _ w => (X.matrix m - a • w.W).PosSemidef
  | .hermitian d m _ _ w => HyperPosSemidef fun k => X.hyper d m k - a • w.W k
  | x => ∀ r < cells x, Below (form x) a (point x r) (X.cell r)

/-- `a W⁻¹` is at most the slack of `y`. -/
def SlackAbove (a : ℝ) (x : Item ℝ) (len : Nat) (c : ℝ) (y : Nat → ℝ) : Prop :=
  match x with
  | .lmi _ o w => (Lmi.Spec.slack o c y - a • w.W⁻¹).PosSemidef
  | .hermitian _ _ _ o w => HyperPosSemidef fun k => hyperSlack o c y k - a • hyperInverse w.W k
  | x => ∀ r < cells x, Below (form x) a (inverse (form x) (point x r)) (cellSlack x len c y r)

end Verif.MatrixCentering.Spec
