import Verif.Spec.Equations
import Verif.Spec.MatrixExists

/-!
# Specification of interior points of programs with equations (C101)
-/

namespace Verif.MatrixCentering.Spec

open Finset Verif.Dual
open Whole.Spec (nth)

/-- `A' l` for all equations, at unknown `u`. -/
noncomputable def reactions (es : List (Entry ℝ)) (l : Nat → ℝ) (u : Nat) : ℝ :=
  ∑ i ∈ range es.length, Sup.Spec.ventry (nth es i).vars (reaction (nth es i).item (unknowns (nth es i) l)) u

/-- The unknown is a multiplier of an equation. -/
def Multiplier (es : List (Entry ℝ)) (u : Nat) : Prop :=
  ∃ e ∈ es, ∃ o, e.item = .equality o ∧ ∃ r < o.p, u = e.vars.getD (o.q + r) 0

/-- The constraints, equations included, together determine the unknowns that are not multipliers. -/
def DeterminedOn (N : Nat) (es : List (Entry ℝ)) : Prop :=
  ∀ z : Nat → ℝ, (∀ e ∈ es, Iteration.Spec.Insensitive (unknowns e z) e.item) → Equations es 0 z →
    ∀ u < N, Multiplier es u ∨ z u = 0

/-- The program and its dual have interior points: the slacks of `y` are, and `y` satisfies the equations; so is `X`, and
`A' X + Q w` together with the reaction of the multipliers `l` is `g`. -/
structure StrictOn (es : List (Entry ℝ)) (N : Nat) (g : Nat → ℝ) (c : ℝ) (y : Nat → ℝ) (X : Nat → Point)
    (w l : Nat → ℝ) : Prop where
  primal : ∀ e ∈ es, Inside e.item e.vars.length c (unknowns e y)
  equations : Equations es c y
  dual : ∀ i < es.length, Positive (nth es i).item (X i)
  balance : ∀ u < N, ∑ i ∈ range es.length, Sup.Spec.ventry (nth es i).vars (fun j => pull (nth es i).item (X i) j +
    Centering.Spec.gradient (unknowns (nth es i) w) (nth es i).item j) u + reactions es l u = g u

end Verif.MatrixCentering.Spec
