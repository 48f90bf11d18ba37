import Verif.Model.Hyper

/-!
# Specification of the geodesic update (C76)
-/

namespace Verif.MatrixExp.Spec

open Hyper

/-- The terms `(w s)^k w` of the series. -/
def term {R : Type} [Field R] {d n : Nat} (w s : Hyp d (Fin n) (Fin n) R) : Nat → Hyp d (Fin n) (Fin n) R
  | 0 => w
  | k + 1 => multiply w (multiply s (term w s k))

end Verif.MatrixExp.Spec
