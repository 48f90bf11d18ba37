import Verif.Model.LineSearch

/-!
# Admissible parameters of a line search

The specification speaks of the direction of the linear inequality as a function of the parameter,
and of sets of parameters; it does not mention bounds of components.
-/

namespace Verif.LineSearch.Spec

open Linear Finset

variable {R : Type} [Field R] [LinearOrder R]

/-- A line search problem: the constraint, the scaling point and two points with their weights. -/
structure Problem (R : Type) where
  o : Con R
  W : Nat → R
  c0 : R
  c1 : R
  y0 : Nat → R
  y1 : Nat → R

/-- Component `i` of the direction `e + w ∘ (A y - c k)` at the point with parameter `t` on the line
through the two points. -/
def dir (p : Problem R) (t : R) (i : Nat) : R :=
  1 + p.W i * ((∑ j ∈ range p.o.m, p.o.A i j * (p.y0 j + t * (p.y1 j - p.y0 j))) -
    (p.c0 + t * (p.c1 - p.c0)) * p.o.c i)

/-- All components are within the bound. -/
def Admissible (dmax : R) (p : Problem R) (t : R) : Prop := ∀ i < p.o.n, |dir p t i| ≤ dmax

/-- The component does not depend on the parameter. -/
def Flat (p : Problem R) (i : Nat) : Prop := dir p 0 i = dir p 1 i

/-- `t` lies in the interval. -/
def Contains (o : Interval R) (t : R) : Prop :=
  (match o.lower with
    | .ninf => True
    | .fin l => l ≤ t
    | _ => False) ∧
  (match o.upper with
    | .pinf => True
    | .fin u => t ≤ u
    | _ => False)

/-- The line search of a problem, as the program calls it: on a fresh output. -/
def search (big dmax : R) (p : Problem R) : Outcome (Bool × Interval R) :=
  performLineSearch p.o p.W p.c0 p.c1 dmax p.o.m p.y0 p.y1 (Interval.default big)

/-- What the theorems assume of a problem: some component changes with the parameter, and no
constant component lies exactly on the bound. -/
def Regular (dmax : R) (p : Problem R) : Prop :=
  (∃ i < p.o.n, ¬ Flat p i) ∧ ∀ i < p.o.n, Flat p i → |dir p 0 i| ≠ dmax

end Verif.LineSearch.Spec
