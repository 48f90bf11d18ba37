import Verif.Spec.WholeSolve

/-!
# Specification of programs with matrix inequalities (C95)
-/

namespace Verif.MatrixCentering.Spec

open Dual Finset Whole

/-- The data of a constraint or of a convex quadratic cost are complete and of the right sizes; all kinds but equations
and matrix inequalities over octonions.  Nothing is said about workspaces. -/
def Data (e : Entry ℝ) (N : Nat) : Prop :=
  e.vars.Nodup ∧ (∀ v ∈ e.vars, v < N) ∧
  match e.item with
  | .lmi n o _ => o.m = e.vars.length ∧ 0 < n ∧ Lmi.Spec.Symmetric o
  | .hermitian d _ _ o _ => o.mats.length = e.vars.length ∧ (d = 1 ∨ d = 2 ∨ d = 4) ∧ HermLmi.Spec.HermitianData o ∧
      ∃ C, o.affine = some C
  | .octonion _ _ _ => False
  | .equality _ => False
  | _ => Whole.Spec.Data e N

/-- A program of inequalities and convex quadratic costs that determine its unknowns, as in C75, but with matrix
inequalities. -/
structure ConeProgram (P : Program ℝ) : Prop where
  data : ∀ e ∈ P.es, Data e P.m
  first : ∃ e, P.es[0]? = some e ∧ e.vars ≠ []
  length : P.duals.length = P.es.length
  noDuals : ∀ d ∈ P.duals, d = []
  sized : Iteration.Spec.Sized P.es P.sys
  occurs : ∀ u < P.m, ∃ e ∈ P.es, u ∈ e.vars
  noShift : ∀ k, Sup.kktInit (P.es.map Entry.vars) P.duals = .ok k → Sup.Spec.NoShift k
  determined : Iteration.Spec.Determined P.m P.es

end Verif.MatrixCentering.Spec
