import Verif.Model.WholeSolve
import Verif.Spec.Iteration

/-!
# Specification for the composed solve (C75)
-/

namespace Verif.Whole.Spec

open Dual Finset

/-- The data of a vector constraint or of a convex quadratic cost are complete and of the right sizes.  Nothing is
said about workspaces. -/
def Data (e : Entry ℝ) (N : Nat) : Prop :=
  e.vars.Nodup ∧ (∀ v ∈ e.vars, v < N) ∧
  match e.item with
  | .linear o _ => o.m = e.vars.length ∧ 0 < o.n
  | .soc o _ => o.m = e.vars.length ∧ Soc.Spec.Complete o
  | .quad o _ => o.m = e.vars.length ∧ QuadCone.Spec.Good o ∧ Spin.Spec.IsForm (QuadCone.inner o.n o.Q)
  | .cost n Q => n = e.vars.length ∧ QuadCone.Spec.Psd n Q
  | _ => False

/-- A program of vector constraints and convex quadratic costs that determine its unknowns.  The first constraint
mentions a variable, every variable occurs (F3), and no block is assembled with shifted labels (F2).  `contains_quadratic_costs_` is set if there are quadratic costs. -/
structure VectorProgram (P : Program ℝ) : Prop where
  data : ∀ e ∈ P.es, Data e P.m
  first : ∃ e, P.es[0]? = some e ∧ e.vars ≠ []
  length : P.duals.length = P.es.length
  noDuals : ∀ d ∈ P.duals, d = []
  sized : Iteration.Spec.Sized P.es P.sys
  occurs : ∀ u < P.m, ∃ e ∈ P.es, u ∈ e.vars
  noShift : ∀ k, Sup.kktInit (P.es.map Entry.vars) P.duals = .ok k → Sup.Spec.NoShift k
  determined : Iteration.Spec.Determined P.m P.es
  costs : ∀ e ∈ P.es, ∀ n Q, e.item = .cost n Q → P.quadratic = true

/-- The function to be minimised: linear and quadratic costs. -/
noncomputable def value (P : Program ℝ) (z : Nat → ℝ) : ℝ :=
  ∑ u ∈ range P.m, P.cost u * z u + (P.es.map fun e => Gap.Spec.quadCost (fun j => z (e.vars.getD j 0)) e.item).sum

end Verif.Whole.Spec
