import Verif.Model.Layout

/-!
# What a valid partition of the memory is
-/

namespace Verif.Layout.Spec

/-- Some double belongs to both regions. -/
def Overlap (r s : Region) : Prop :=
  ∃ i, (r.start ≤ i ∧ i < r.start + r.len) ∧ (s.start ≤ i ∧ i < s.start + s.len)

/-- The regions lie in a buffer of the given size, no two overlap, and the aligned views start at
even offsets. -/
structure Valid (size : Nat) (l : List Region) : Prop where
  inside : ∀ r ∈ l, r.start + r.len ≤ size
  disjoint : l.Pairwise fun r s => ¬ Overlap r s
  aligned : ∀ r ∈ l, r.view = true → 2 ∣ r.start

/-- How many doubles each name of a workspace needs: vectors of a cone, matrices of order `n`, an
`n` by `m` matrix, one double. -/
def needs : Space → List Nat
  | .linear n m => [n, n, n, n * m]
  | .soc n => [n, n, n, n, 1]
  | .psd n => [n * n, n * n, n * n]
  | .empty => []
  | .schur m true => [m, m]
  | .schur m false => [m, m, m * m]
  | .stats k => [k, k, 1, 1]

end Verif.Layout.Spec
