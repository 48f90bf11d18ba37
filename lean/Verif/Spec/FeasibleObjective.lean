import Verif.Model.FeasibleObjective
import Verif.Spec.Iteration

/-!
# Specification for feasible objectives (C78)
-/

namespace Verif.Feasible.Spec

open Dual Finset

/-- The data of the constraint are complete, of the right sizes and symmetric.  Nothing is said about workspaces. -/
def Data (e : Entry ℝ) (N : Nat) : Prop :=
  e.vars.Nodup ∧ (∀ v ∈ e.vars, v < N) ∧
  match e.item with
  | .linear o _ => o.m = e.vars.length
  | .lmi _ o _ => o.m = e.vars.length ∧ Lmi.Spec.Symmetric o
  | .hermitian d _ _ o _ => o.mats.length = e.vars.length ∧ (d = 1 ∨ d = 2 ∨ d = 4) ∧
      HermLmi.Spec.HermitianData o ∧ ∃ C, o.affine = some C
  | .octonion _ o _ => o.mats.length = e.vars.length ∧ HermLmi.Spec.HermitianData o ∧ ∃ C, o.affine = some C
  | .soc o _ => o.m = e.vars.length ∧ Soc.Spec.Complete o
  | .quad o _ => o.m = e.vars.length ∧ QuadCone.Spec.Good o ∧ Spin.Spec.IsForm (QuadCone.inner o.n o.Q)
  | .equality o => o.nb = o.p ∧ o.q + o.p = e.vars.length
  | .cost n _ => n = e.vars.length

/-- The trace of the slack at `z`: the sum of its entries for inequalities, twice its first entry for second-order
cones, the real trace for matrices; nothing for equations and costs. -/
noncomputable def trace (z : Nat → ℝ) : Item ℝ → ℝ
  | .linear o _ => ∑ r ∈ range o.n, (o.c r - ∑ j ∈ range o.m, o.A r j * z j)
  | .lmi _ o _ => (o.C - ∑ j ∈ range o.m, z j • o.A j).trace
  | .hermitian _ _ hd o _ => ∑ i, HermLmi.Spec.slack o.mats (o.affine.getD fun _ => 0) 1 z
      ⟨0, Nat.pos_of_ne_zero hd.out⟩ i i
  | .octonion _ o _ => ∑ i, HermLmi.Spec.slack o.mats (o.affine.getD fun _ => 0) 1 z 0 i i
  | .soc o _ => 2 * (Soc.Spec.slack o 1 z).h
  | .quad o _ => 2 * (QuadCone.Spec.slack o 1 z).h
  | _ => 0

/-- All entries of the slack at `z` are at most `t`; for a quadratic cone, its first entry and its norm. -/
def Within (t : ℝ) (z : Nat → ℝ) : Item ℝ → Prop
  | .linear o _ => ∀ r < o.n, |o.c r - ∑ j ∈ range o.m, o.A r j * z j| ≤ t
  | .lmi _ o _ => ∀ p q, |(o.C - ∑ j ∈ range o.m, z j • o.A j) p q| ≤ t
  | .hermitian _ _ _ o _ => ∀ C, o.affine = some C → ∀ c p q, |HermLmi.Spec.slack o.mats C 1 z c p q| ≤ t
  | .soc o _ => |(Soc.Spec.slack o 1 z).h| ≤ t ∧ ∀ i < o.n, |(Soc.Spec.slack o 1 z).t i| ≤ t
  | .quad o _ => |(QuadCone.Spec.slack o 1 z).h| ≤ t ∧
      QuadCone.inner o.n o.Q (QuadCone.Spec.slack o 1 z).t (QuadCone.Spec.slack o 1 z).t ≤ t ^ 2
  | _ => True

/-- The value of an objective. -/
noncomputable def value (b : Column ℝ) (z : Nat → ℝ) : ℝ := ∑ u ∈ range b.1, b.2 u * z u

/-- The trace of all slacks. -/
noncomputable def traces (es : List (Entry ℝ)) (z : Nat → ℝ) : ℝ :=
  (es.map fun e => trace (fun j => z (e.vars.getD j 0)) e.item).sum

/-- What `Initialize` and `Assemble` need: a solver for the unknowns of the constraints.  The last three conditions
are those of C18: multipliers come last in their constraint, no block is assembled with shifted labels (F2), every
unknown occurs (F3). -/
structure Usable (P : Whole.Program ℝ) : Prop where
  length : P.duals.length = P.es.length
  kkt : ∃ k, Sup.kktInit (P.es.map Entry.vars) P.duals = .ok k ∧ Sup.Spec.NoShift k
  last : ∀ (i : Nat) (c dv : List Nat), (P.es.map Entry.vars)[i]? = some c → P.duals[i]? = some dv → ∃ q, c = q ++ dv
  occurs : ∀ u, u < P.N ↔ ∃ c ∈ P.es.map Entry.vars, u ∈ c

end Verif.Feasible.Spec
