import Verif.Spec.Assembler
import Verif.Spec.HermitianLmi
import Verif.Spec.Lmi
import Verif.Model.DualVariables

/-!
# Specification of dual variables (C38, C56)
-/

namespace Verif.Dual.Spec

open Finset

variable {R : Type} [Field R] [LinearOrder R]

/-- The image of the dual variable under the adjoint of the linear map of the constraint: entry `j` is
the inner product with the coefficients of unknown `j`.  The inner product of the second-order cones is
twice the usual one; the dual variable of an equation is its multiplier. -/
def adjoint : Item R → Nat → R
  | .linear o w, j => ∑ r ∈ range o.n, o.A r j * w.W r
  | .lmi n o w, j => ∑ r : Fin n, ∑ c : Fin n, o.A j r c * w.W r c
  | .hermitian _ _ _ o w, j => HermLmi.Spec.inner (o.mats.getD j fun _ => 0) w.W
  | .octonion _ o w, j => HermLmi.Spec.inner (o.mats.getD j fun _ => 0) w.W
  | .soc o w, j => 2 * (o.A 0 j * w.W.h + ∑ i ∈ range o.n, o.A (i + 1) j * w.W.t i)
  | .quad o w, j => 2 * ((o.A j).h * w.W.h + QuadCone.inner o.n o.Q (o.A j).t w.W.t)
  | .equality o, j => if j < o.q then ∑ r ∈ range o.p, o.A r j * o.lambda r else 0
  | .cost _ _, _ => 0

/-- Linear inequalities, matrix inequalities over associative algebras and equations, with sizes that
fit, and symmetric data. -/
def Good (e : Entry R) (N : Nat) : Prop :=
  e.vars.Nodup ∧ (∀ v ∈ e.vars, v < N) ∧
  match e.item with
  | .linear o _ => o.m = e.vars.length
  | .lmi _ o w => o.m = e.vars.length ∧ Lmi.Spec.Symmetric o ∧ w.W.transpose = w.W
  | .hermitian d _ _ o w => o.mats.length = e.vars.length ∧ (d = 1 ∨ d = 2 ∨ d = 4) ∧
      HermLmi.Spec.HermitianData o ∧ o.affine.isSome ∧ Hyper.Spec.Hermitian w.W
  | .equality o => o.nb = o.p ∧ o.q + o.p = e.vars.length
  | _ => False

/-- The unknown is not a multiplier of an equation. -/
def Primal (es : List (Entry R)) (u : Nat) : Prop :=
  ∀ e ∈ es, match e.item with
    | .equality o => e.vars.idxOf u < o.q ∨ u ∉ e.vars
    | _ => True

/-- Sum over all constraints of the images of the dual variables, at unknown `u`. -/
def dualSum (es : List (Entry R)) (u : Nat) : R :=
  (es.map fun e => Sup.Spec.ventry e.vars (adjoint e.item) u).sum

end Verif.Dual.Spec
