import Verif.Model.Iteration
import Verif.Spec.Assembler
import Verif.Spec.DenseFactor
import Verif.Spec.Gap

/-!
# Specification for the composed iterations (C74)
-/

namespace Verif.Iteration.Spec

open Finset Dual

/-- The systems have one row for each unknown of their constraints, as `Container` allocates them
(`/repo/conex/constraint_manager.h` 65, 77). -/
def Sized {R : Type} (es : List (Entry R)) (sys : List (Schur.Sys R)) : Prop :=
  sys.map Schur.Sys.rows = es.map fun e => e.vars.length

/-- The solver was built for the unknowns of the constraints, in the mode without QR.  The last three conditions
are those of C18 and C21: the multipliers come last in their constraint, no block is assembled with shifted
labels (F2), and every unknown occurs (F3). -/
structure Built (p : Setup ℝ) (duals : List (List Nat)) (es : List (Entry ℝ)) : Prop where
  kkt : Sup.kktInit (es.map Entry.vars) duals = .ok p.kkt
  llt : Dense.Spec.LltContract p.llt
  mode : p.useQr = false
  length : duals.length = es.length
  last : ∀ (i : Nat) (c dv : List Nat), (es.map Entry.vars)[i]? = some c → duals[i]? = some dv → ∃ q, c = q ++ dv
  noShift : Sup.Spec.NoShift p.kkt
  occurs : ∀ u, u < p.N ↔ ∃ c ∈ es.map Entry.vars, u ∈ c

/-- No pivot was replaced in the factorization (F22). -/
def Unregularized (st : Step ℝ) : Prop := ∀ F, st.fact = some (.ldlt F) → F.reg = false

/-- The iterations `0, ..., j` follow one another. -/
def Chain (v : Env ℝ) (p : Setup ℝ) (k : Nat → ℝ) (j : Nat) (x : Nat → State ℝ) (st : Nat → Step ℝ) : Prop :=
  ∀ i ≤ j, iterate v p (k i) (x i) = .ok (some (st i, x (i + 1)))

/-- A displacement by `z` does not change the slack of the constraint, or the quadratic cost to second order. -/
def Insensitive (z : Nat → ℝ) : Item ℝ → Prop
  | .linear o _ => ∀ r < o.n, ∑ j ∈ range o.m, o.A r j * z j = 0
  | .lmi _ o _ => ∑ j ∈ range o.m, z j • o.A j = 0
  | .hermitian d _ _ o _ => ∀ c : Fin d, ∑ j ∈ range o.mats.length, z j • o.mats.getD j (fun _ => 0) c = 0
  | .soc o _ => ∀ i ≤ o.n, ∑ j ∈ range o.m, o.A i j * z j = 0
  | .quad o _ => ∑ j ∈ range o.m, (o.A j).h * z j = 0 ∧
      QuadCone.inner o.n o.Q (fun i => ∑ j ∈ range o.m, (o.A j).t i * z j)
        (fun i => ∑ j ∈ range o.m, (o.A j).t i * z j) = 0
  | .cost n Q => ∑ i ∈ range n, z i * ∑ j ∈ range n, Q i j * z j = 0
  | _ => True

/-- The constraints together determine the unknowns. -/
def Determined (N : Nat) (es : List (Entry ℝ)) : Prop :=
  ∀ z : Nat → ℝ, (∃ u < N, z u ≠ 0) → ∃ e ∈ es, ¬ Insensitive (fun j => z (e.vars.getD j 0)) e.item

/-- The constraint is no equation, not empty, and its affine term is set. -/
def Usable : Item ℝ → Prop
  | .linear o _ => 0 < o.n
  | .lmi n _ _ => 0 < n
  | .hermitian _ _ _ o _ => ∃ C, o.affine = some C
  | .equality _ => False
  | _ => True

/-- The constraint is a real matrix inequality given by dense matrices (`DenseLMIConstraint`). -/
def DenseMatrix : Item ℝ → Prop
  | .lmi _ _ _ => True
  | _ => False

/-- The constraint is a matrix inequality. -/
def MatrixCone : Item ℝ → Prop
  | .lmi _ _ _ => True
  | .hermitian _ _ _ _ _ => True
  | .octonion _ _ _ => True
  | _ => False

/-- What is assumed of a program at the start: no equations, the data complete and the scaling points in the
interior of their cones, every unknown determined. -/
structure Ready (p : Setup ℝ) (duals : List (List Nat)) (x : State ℝ) : Prop where
  built : Built p duals x.es
  complete : Dense.Spec.LltComplete p.llt
  noDuals : ∀ d ∈ duals, d = []
  good : ∀ e ∈ x.es, Gap.Spec.Good e p.N
  usable : ∀ e ∈ x.es, Usable e.item
  sized : Sized x.es x.sys
  determined : Determined p.N x.es

end Verif.Iteration.Spec
