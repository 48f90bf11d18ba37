import Verif.Model.LinearConstraint
import Verif.Spec.Divergence

/-!
# What the operations of a linear inequality should compute
-/

namespace Verif.Linear.Spec

open Finset

variable {R : Type} [Field R] [LinearOrder R]

/-- Slack `k c - A y` of row `i`. -/
def slack (o : Con R) (k : R) (y : Nat → R) (i : Nat) : R :=
  k * o.c i - ∑ j ∈ range o.m, o.A i j * y j

/-- Direction `e_weight e - w ∘ (k c - A y)` of row `i`. -/
def dir (o : Con R) (W : Nat → R) (k e : R) (y : Nat → R) (i : Nat) : R :=
  e - W i * slack o k y i

/-- `b` is the maximum of `f 0, …, f (n - 1)`. -/
def IsMax (f : Nat → R) (n : Nat) (b : R) : Prop := (∃ i < n, b = f i) ∧ ∀ i < n, f i ≤ b

/-- A sequence of steps: each is prepared at its own point with its own options and then taken. -/
def run (exp : R → R) (o : Con R) : List (StepOpt R × (Nat → R)) → Ws R → Outcome (Ws R)
  | [], w => .ok w
  | (opt, y) :: l, w => do
    let r ← prepareStep exp o opt o.m y w
    run exp o l (takeStep exp opt r.1)

end Verif.Linear.Spec
