import Verif.Model.KktError
import Verif.Spec.KktError

/-!
# Specification of the objective values on which infeasibility is decided (C73)
-/

namespace Verif.Infeasible.Spec

open Finset Dual

/-- There are no quadratic costs. -/
def NoCost (es : List (Entry ℝ)) : Prop := ∀ e ∈ es, ∀ n Q, e.item ≠ .cost n Q

/-- `cx` and `bY` are the objective values that are computed from the solution `y` of the linear system. -/
def Values (sqrt : ℝ → ℝ) (N : Nat) (b : Nat → ℝ) (k bs cs : ℝ) (es : List (Entry ℝ)) (y : Nat → ℝ)
    (cx bY : ℝ) : Prop :=
  ∃ s r, KktError.Spec.Contributions sqrt es s ∧ KktError.Spec.Solves N b k bs cs es s y ∧
    Sup.assembleResiduals N (es.map Entry.vars) (fun i => KktError.resid (s i)) = .ok r ∧
    cx = KktError.cxValue N r y k bs cs ∧ bY = KktError.byValue N b y k cs

end Verif.Infeasible.Spec
