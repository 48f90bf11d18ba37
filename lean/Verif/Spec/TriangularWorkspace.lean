import Verif.Spec.Pattern
import Verif.Model.TriangularWorkspace

/-!
# Which matrix entry a storage cell stands for (C17, C18, C20)
-/

namespace Verif.Sup.Spec

/-- The cell lies inside its block. -/
def Valid (sizes : List Nat) (seps : List (List Nat)) : Cell → Prop
  | .diag k r c => k < sizes.length ∧ r < sizes.getD k 0 ∧ c < sizes.getD k 0
  | .off k r c => k < sizes.length ∧ r < sizes.getD k 0 ∧ c < (seps.getD k []).length

/-- `(row, column)` of the entry stored in a cell. The off-diagonal blocks are stored transposed. -/
def coord (sizes : List Nat) (seps : List (List Nat)) : Cell → Nat × Nat
  | .diag k r c => (start sizes k + r, start sizes k + c)
  | .off k r c => ((seps.getD k []).getD c 0, start sizes k + r)

/-- `path` is the list of fronts of the pattern: own columns first, then the other rows. -/
def IsPath (sizes : List Nat) (seps : List (List Nat)) (path : List (List Nat)) : Prop :=
  path.length = sizes.length ∧
  ∀ (k size : Nat) (s : List Nat), sizes[k]? = some size → seps[k]? = some s →
    path[k]? = some (List.range' (start sizes k) size ++ s)

end Verif.Sup.Spec
