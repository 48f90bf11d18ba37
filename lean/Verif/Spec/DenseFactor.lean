import Mathlib.Algebra.BigOperators.Group.Finset.Basic
import Mathlib.Algebra.Field.Basic
import Verif.Spec.ColumnFactor

/-!
# What is assumed about Eigen's dense Cholesky factorisation (C20)
-/

namespace Verif.Dense.Spec

/-- The contract of `Eigen::LLT`: if the factorisation of the lower triangle of an `n × n` matrix `A`
succeeds, its result `L` is lower triangular with non-zero diagonal and `L Lᵀ = A`. -/
def LltContract {R : Type} [Field R]
    (llt : Nat → (Nat → Nat → R) → Option (Nat → Nat → R)) : Prop :=
  ∀ n A L, llt n A = some L →
    (∀ r, r < n → L r r ≠ 0) ∧ (∀ r c, r < n → r < c → L r c = 0) ∧
    ∀ r c, r < n → c ≤ r → ∑ k ∈ Finset.range n, L r k * L c k = A r c

/-- The other half of the contract of `Eigen::LLT`: the factorisation of a matrix whose lower triangle is that
of a positive definite matrix succeeds (in exact arithmetic). -/
def LltComplete {R : Type} [Field R] [LinearOrder R]
    (llt : Nat → (Nat → Nat → R) → Option (Nat → Nat → R)) : Prop :=
  ∀ n A, Sup.Spec.PosDef n (fun i j => A (max i j) (min i j)) → ∃ L, llt n A = some L

/-- The contract of `Eigen::ColPivHouseholderQR::solve` used for C21: the result solves the system if
the system has a solution. -/
def QrContract {R : Type} [Field R]
    (qr : Nat → (Nat → Nat → R) → (Nat → R) → Nat → R) : Prop :=
  ∀ n K b, (∃ x : Nat → R, ∀ i, i < n → ∑ j ∈ Finset.range n, K i j * x j = b i) →
    ∀ i, i < n → ∑ j ∈ Finset.range n, K i j * qr n K b j = b i

end Verif.Dense.Spec
