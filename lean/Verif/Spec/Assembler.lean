import Mathlib.Algebra.BigOperators.Group.List.Basic
import Verif.Model.SupernodalData

/-!
# What assembly should produce (C18, C19)
-/

namespace Verif.Sup.Spec

variable {R : Type}

/-- Contribution of a constraint on the unknowns `L`, in this order, with a symmetric matrix whose
lower triangle is `G`, to entry `(u, v)` of the linear system. -/
def entry [Zero R] (L : List Nat) (G : Nat → Nat → R) (u v : Nat) : R :=
  if u ∈ L ∧ v ∈ L then G (max (L.idxOf u) (L.idxOf v)) (min (L.idxOf u) (L.idxOf v)) else 0

/-- Sum over all constraints. -/
def total [AddCommMonoid R] (cs : List (List Nat)) (G : Nat → Nat → Nat → R) (u v : Nat) : R :=
  ((List.range cs.length).map fun i => entry (cs.getD i []) (G i) u v).sum

/-- Contribution of a constraint on the unknowns `L` with residual vector `r` to entry `u`. -/
def ventry [Zero R] (L : List Nat) (r : Nat → R) (u : Nat) : R :=
  if u ∈ L then r (L.idxOf u) else 0

/-- No block is written directly with shifted labels: if a supernode has as many rows as its
constraint has unknowns, and the positions of these rows in the constraint increase, then none of the
rows is fill-in (so that the positions are `0, 1, …`). -/
def NoShift (k : Kkt) : Prop :=
  ∀ (e i : Nat) (snl : List Int), k.data.cliqueOrder[e]? = some i → k.snPos[e]? = some snl →
    snl.length = (k.cliques.getD i []).length → snl.Pairwise (· < ·) → -1 ∉ snl

end Verif.Sup.Spec
