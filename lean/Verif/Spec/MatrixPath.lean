import Verif.Spec.ConeCentering
import Verif.Spec.Gap

/-!
# Specification of centering for matrix inequalities (C97)

Linear matrix inequalities over the real and complex numbers and the quaternions beside the cells of C92.
-/

namespace Verif.MatrixCentering.Spec

open Finset Verif.Dual ConeCentering.Spec
open Whole.Spec (nth)

/-- No matrix inequalities over the complex numbers, the quaternions or the octonions. -/
def RealCones (es : List (Entry ℝ)) : Prop := ∀ e ∈ es, ∀ d m hd o w, e.item ≠ .hermitian d m hd o w

/-- Only matrix inequalities over the complex numbers or the quaternions, added with the same class for the real numbers
too, and quadratic costs. -/
def HermitianCones (es : List (Entry ℝ)) : Prop :=
  ∀ e ∈ es, (∃ d m hd o w, e.item = .hermitian d m hd o w) ∨ ∃ n Q, e.item = .cost n Q

/-- All constraints take steps with the same kind of update: all with the exponential function or its Padé approximant, or
all with its Taylor polynomial. -/
def SameUpdate (es : List (Entry ℝ)) : Prop := RealCones es ∨ HermitianCones es

/-- The slack `c C - A y` of a Hermitian matrix inequality. -/
def hyperSlack {d m : Nat} (o : HermLmi.Con d m ℝ) (c : ℝ) (y : Nat → ℝ) : HermLmi.HMat d m ℝ :=
  HermLmi.Spec.slack o.mats (o.affine.getD fun _ => 0) c y

open Classical in
/-- A matrix `X` with `S X` the identity, zero if there is none. -/
noncomputable def hyperInverse {d m : Nat} (S : HermLmi.HMat d m ℝ) : HermLmi.HMat d m ℝ :=
  if h : ∃ X : HermLmi.HMat d m ℝ, Hyper.multiply S X = Hyper.identity d then h.choose else fun _ => 0

/-- The slack `c C - A y` in cell `r` of a constraint with `len` variables. -/
noncomputable def cellSlack (x : Item ℝ) (len : Nat) (c : ℝ) (y : Nat → ℝ) (r : Nat) : Soc.El ℝ :=
  ⟨c * (affine x r).h - ∑ j ∈ range len, (column x r j).h * y j,
    fun l => c * (affine x r).t l - ∑ j ∈ range len, (column x r j).t l * y j⟩

/-- `y` is strictly feasible. -/
def Inside (x : Item ℝ) (len : Nat) (c : ℝ) (y : Nat → ℝ) : Prop :=
  match x with
  | .lmi _ o _ => (Lmi.Spec.slack o c y).PosDef
  | .hermitian _ _ _ o _ => HermLmi.Spec.PosDef (hyperSlack o c y)
  | x => ∀ r < cells x, Spin.Spec.Interior (form x) (cellSlack x len c y r)

/-- `A' s⁻¹ + Q y` at variable `j`, where `s` is the slack: the derivative of the barrier function and the cost. -/
noncomputable def force (x : Item ℝ) (len : Nat) (c : ℝ) (y : Nat → ℝ) (j : Nat) : ℝ :=
  match x with
  | .lmi _ o _ => (o.A j * (Lmi.Spec.slack o c y)⁻¹).trace
  | .hermitian _ _ _ o _ => HermLmi.Spec.inner (o.mats.getD j fun _ => 0) (hyperInverse (hyperSlack o c y))
  | x => ∑ r ∈ range (cells x), pair x (column x r j) (inverse (form x) (cellSlack x len c y r)) +
      Centering.Spec.gradient y x j

/-- The unknowns of a constraint. -/
def unknowns (e : Entry ℝ) (y : Nat → ℝ) : Nat → ℝ := fun j => y (e.vars.getD j 0)

/-- `y` is the central point: it is strictly feasible, and the forces of all constraints balance `g`. -/
structure Central (es : List (Entry ℝ)) (N : Nat) (g : Nat → ℝ) (c : ℝ) (y : Nat → ℝ) : Prop where
  inside : ∀ e ∈ es, Inside e.item e.vars.length c (unknowns e y)
  stationary : ∀ u < N, ∑ i ∈ range es.length, Sup.Spec.ventry (nth es i).vars
    (force (nth es i).item (nth es i).vars.length c (unknowns (nth es i) y)) u = g u

/-- The distance of the scaling point `w` of a constraint from the inverse of the slack `s` of `y`:
`⟨w, s⟩ + ⟨w⁻¹, s⁻¹⟩` minus twice the rank. -/
noncomputable def separation (x : Item ℝ) (len : Nat) (c : ℝ) (y : Nat → ℝ) : ℝ :=
  match x with
  | .lmi m o w => (w.W * Lmi.Spec.slack o c y).trace + (w.W⁻¹ * (Lmi.Spec.slack o c y)⁻¹).trace - 2 * m
  | .hermitian _ m _ o w => HermLmi.Spec.inner w.W (hyperSlack o c y) +
      HermLmi.Spec.inner (hyperInverse w.W) (hyperInverse (hyperSlack o c y)) - 2 * m
  | x => ∑ r ∈ range (cells x), ConeCentering.Spec.separation x (point x r) (cellSlack x len c y r)

/-- The distance of all scaling points. -/
noncomputable def distance (es : List (Entry ℝ)) (c : ℝ) (y : Nat → ℝ) : ℝ :=
  ∑ i ∈ range es.length,
    separation (nth es i).item (nth es i).vars.length c (unknowns (nth es i) y)

/-- The step of size `t` is not too long: `t (1 - μ)² ≤ 2` for all eigenvalues `μ` of the product of scaling point and
slack.  It is so if the norm from which the step size was computed bounds `|1 - μ|`. -/
def Short (c t : ℝ) (y : Nat → ℝ) : Item ℝ → Prop
  | .lmi _ o w => ∀ μ, MatrixExp.Spec.Eigenvalue (w.W * Lmi.Spec.slack o c y) μ → t * (1 - μ) ^ 2 ≤ 2
  | .hermitian _ _ _ o w => ∀ C, o.affine = some C →
      ∀ μ, HermLmi.Spec.Eigenvalue (Hyper.multiply w.W (HermLmi.Spec.slack o.mats C c y)) μ → t * (1 - μ) ^ 2 ≤ 2
  | _ => True

end Verif.MatrixCentering.Spec
