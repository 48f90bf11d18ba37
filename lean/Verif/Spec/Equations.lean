import Verif.Spec.MatrixPath
import Verif.Spec.Iteration

/-!
# Specification of central points of programs with equations (C100)

An equation `A y = b` with `q` columns and `p` rows is a constraint whose last `p` unknowns are its multipliers.
-/

namespace Verif.MatrixCentering.Spec

open Finset Verif.Dual
open Whole.Spec (nth)

/-- All constraints take steps with the same kind of update, as `SameUpdate`; equations take no steps. -/
def CommonUpdate (es : List (Entry ℝ)) : Prop :=
  RealCones es ∨ ∀ e ∈ es, (∃ d m hd o w, e.item = .hermitian d m hd o w) ∨ (∃ n Q, e.item = .cost n Q) ∨
    ∃ o, e.item = .equality o

/-- The equations hold, with the right-hand sides multiplied by `c`. -/
def Equations (es : List (Entry ℝ)) (c : ℝ) (y : Nat → ℝ) : Prop :=
  ∀ e ∈ es, ∀ o, e.item = .equality o → ∀ r < o.p, ∑ j ∈ range o.q, o.A r j * unknowns e y j = c * o.b r

/-- `A' l` at variable `j` of an equation, where `l` are its multipliers. -/
noncomputable def reaction (x : Item ℝ) (y : Nat → ℝ) (j : Nat) : ℝ :=
  match x with
  | .equality o => if j < o.q then ∑ r ∈ range o.p, o.A r j * y (o.q + r) else 0
  | _ => 0

/-- `y` is the central point: it is strictly feasible, satisfies the equations, and the forces of all inequalities and
costs together with those of the multipliers balance `g`. -/
structure CentralOn (es : List (Entry ℝ)) (N : Nat) (g : Nat → ℝ) (c : ℝ) (y : Nat → ℝ) : Prop where
  inside : ∀ e ∈ es, Inside e.item e.vars.length c (unknowns e y)
  equations : Equations es c y
  stationary : ∀ u < N, ∑ i ∈ range es.length, Sup.Spec.ventry (nth es i).vars
    (fun j => force (nth es i).item (nth es i).vars.length c (unknowns (nth es i) y) j +
      reaction (nth es i).item (unknowns (nth es i) y) j) u = g u

/-- What is assumed of a program with equations: the data are complete and the scaling points in the interior of their
cones, there are multipliers, which belong to their equations alone, and no supernode is empty (F21). -/
structure ReadyOn (p : Iteration.Setup ℝ) (duals : List (List Nat)) (x : Iteration.State ℝ) : Prop where
  built : Iteration.Spec.Built p duals x.es
  multipliers : ∃ d ∈ duals, d ≠ []
  blocks : ∀ n ∈ p.kkt.data.supernodeSize, 0 < n
  good : ∀ e ∈ x.es, Gap.Spec.Good e p.N
  usable : ∀ e ∈ x.es, Iteration.Spec.Usable e.item ∨ ∃ o, e.item = .equality o
  sized : Iteration.Spec.Sized x.es x.sys
  separate : Gap.Spec.Separate x.es p.b

end Verif.MatrixCentering.Spec
