import Mathlib.Data.List.Basic

/-!
# Sparsity pattern of a supernodal lower triangular matrix (C15, C17, C18, C20)

Block `k` owns `sizes[k]` consecutive columns, and has entries in the rows of its own columns and
in the rows listed in `seps[k]`.
-/

namespace Verif.Sup.Spec

/-- First column of block `k`. -/
def start (sizes : List Nat) (k : Nat) : Nat := (sizes.take k).sum

/-- Column `v` belongs to block `k`. -/
def InBlock (sizes : List Nat) (k v : Nat) : Prop :=
  k < sizes.length ∧ start sizes k ≤ v ∧ v < start sizes (k + 1)

/-- A well-formed pattern: the rows below block `k` are listed in increasing order, are rows of later
blocks, and elimination of block `k` creates no entry outside the pattern. -/
structure Pattern (sizes : List Nat) (seps : List (List Nat)) : Prop where
  len : seps.length = sizes.length
  sorted : ∀ (k : Nat) (s : List Nat), seps[k]? = some s → s.Pairwise (· < ·)
  above : ∀ (k : Nat) (s : List Nat), seps[k]? = some s → ∀ v ∈ s,
    start sizes (k + 1) ≤ v ∧ v < sizes.sum
  closed : ∀ (k : Nat) (s : List Nat), seps[k]? = some s → ∀ c ∈ s, ∀ r ∈ s, c ≤ r →
    ∀ o, InBlock sizes o c → InBlock sizes o r ∨ ∃ t, seps[o]? = some t ∧ r ∈ t

end Verif.Sup.Spec
