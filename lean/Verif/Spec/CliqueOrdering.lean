import Mathlib.Logic.Function.Iterate

/-!
# Specification vocabulary for clique ordering (C11-C14)
-/

namespace Verif.Clique.Spec

/-- `a` is `e` or an ancestor of `e` for the parent map `par`. -/
def Anc (par : Nat → Nat) (a e : Nat) : Prop := ∃ k, par^[k] e = a

/-- `a` comes strictly before `b` in the list `l`. -/
def Before {α : Type} (l : List α) (a b : α) : Prop := ∃ pre suf, l = pre ++ b :: suf ∧ a ∈ pre

/-- Index sets are strictly increasing. -/
abbrev Increasing (cs : List (List Nat)) : Prop := ∀ c ∈ cs, c.Pairwise (· < ·)

/-- The affinity of two index sets: the number of shared unknowns, and 10000 more for each of the
two that should not be a leaf (constraints with multipliers). `leaf = none` when no constraint has
multipliers. -/
def affinity (cs : List (List Nat)) (leaf : Option (Nat → Bool)) (a i : Nat) : Nat :=
  (((cs[a]?).getD []).filter (fun v => decide (v ∈ (cs[i]?).getD []))).length +
    match leaf with
    | none => 0
    | some ok => (if ok a = true then 0 else 10000) + (if ok i = true then 0 else 10000)

end Verif.Clique.Spec
