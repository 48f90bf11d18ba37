import Verif.Spec.Iteration
import Verif.Spec.WholeDual

/-!
# Specification of centering (C88)
-/

namespace Verif.Centering.Spec

open Finset Verif.Dual Whole.Spec

/-- Linear inequalities and quadratic costs. -/
def Polyhedral (es : List (Entry ℝ)) : Prop :=
  ∀ e ∈ es, (∃ o w, e.item = .linear o w) ∨ ∃ n Q, e.item = .cost n Q

/-- The scaling point of a linear inequality. -/
def weight : Item ℝ → Nat → ℝ
  | .linear _ w => w.W
  | _ => fun _ => 0

/-- The slack `c C - A y` in row `r` of constraint `i`. -/
noncomputable def slack (es : List (Entry ℝ)) (c : ℝ) (y : Nat → ℝ) (i r : Nat) : ℝ :=
  c * (con (nth es i).item).c r -
    ∑ j ∈ range (con (nth es i).item).m, (con (nth es i).item).A r j * y ((nth es i).vars.getD j 0)

/-- The gradient `Q y` of a quadratic cost. -/
noncomputable def gradient (y : Nat → ℝ) : Item ℝ → Nat → ℝ
  | .cost n Q => fun j => ∑ l ∈ range n, Q j l * y l
  | _ => fun _ => 0

/-- The gradients of all quadratic costs, at unknown `u`. -/
noncomputable def gradients (es : List (Entry ℝ)) (y : Nat → ℝ) (u : Nat) : ℝ :=
  ∑ i ∈ range es.length, Sup.Spec.ventry (nth es i).vars
    (gradient (fun j => y ((nth es i).vars.getD j 0)) (nth es i).item) u

/-- `y` is the central point: it lies in the interior, and it is a stationary point of
`1/2 y' Q y - g' y - ∑ log (slack)`. -/
structure Central (es : List (Entry ℝ)) (N : Nat) (g : Nat → ℝ) (c : ℝ) (y : Nat → ℝ) : Prop where
  interior : ∀ i < es.length, ∀ r < (con (nth es i).item).n, 0 < slack es c y i r
  stationary : ∀ u < N, balance es (fun i r => 1 / slack es c y i r) u + gradients es y u = g u

/-- The distance of the scaling points from those of the point `y`, which are the inverse slacks: the sum of
`a + 1/a - 2` over all products `a` of scaling point and slack.  It is nonnegative, and zero only if all
products are one. -/
noncomputable def distance (es : List (Entry ℝ)) (c : ℝ) (y : Nat → ℝ) : ℝ :=
  ∑ i ∈ range es.length, ∑ r ∈ range (con (nth es i).item).n,
    (weight (nth es i).item r * slack es c y i r + 1 / (weight (nth es i).item r * slack es c y i r) - 2)

/-- The program and its dual have interior points: `c C - A y > 0`, and `x > 0` with `A' x + Q w = g`. -/
structure Interior (es : List (Entry ℝ)) (N : Nat) (g : Nat → ℝ) (c : ℝ) (y : Nat → ℝ) (x : Nat → Nat → ℝ)
    (w : Nat → ℝ) : Prop where
  primal : ∀ i < es.length, ∀ r < (con (nth es i).item).n, 0 < slack es c y i r
  dual : ∀ i < es.length, ∀ r < (con (nth es i).item).n, 0 < x i r
  equations : ∀ u < N, balance es x u + gradients es w u = g u

/-- The number of rows. -/
def count (es : List (Entry ℝ)) : ℝ := ∑ i ∈ range es.length, ((con (nth es i).item).n : ℝ)

/-- The inner product of dual variables and slacks. -/
noncomputable def product (es : List (Entry ℝ)) (c : ℝ) (y : Nat → ℝ) (x : Nat → Nat → ℝ) : ℝ :=
  ∑ i ∈ range es.length, ∑ r ∈ range (con (nth es i).item).n, x i r * slack es c y i r

/-- The quadratic form `y' Q y` of all costs. -/
noncomputable def curvature (es : List (Entry ℝ)) (N : Nat) (y : Nat → ℝ) : ℝ :=
  ∑ u ∈ range N, y u * gradients es y u

end Verif.Centering.Spec
