import Verif.Spec.LinearConstraint
import Mathlib.Algebra.BigOperators.Ring.Finset
import Mathlib.Data.List.Basic
import Mathlib.Algebra.BigOperators.Group.Finset.Defs
import Mathlib.Tactic.Linarith
import Mathlib.Tactic.Ring
import Mathlib.Tactic.SplitIfs

/-!
# Lemmas on the linear inequality
-/

namespace Verif.Linear

open Finset Schur Spec

variable {R : Type} [Field R] [LinearOrder R]

theorem maxCoeff_spec (f : Nat → R) (n : Nat) : IsMax f (n + 1) (maxCoeff f n) := by
  induction n with
  | zero =>
    refine ⟨⟨0, by omega, rfl⟩, fun i hi => ?_⟩
    rw [show i = 0 by omega]
    exact le_rfl
  | succ n ih =>
    obtain ⟨⟨j, hj, e⟩, h⟩ := ih
    constructor
    · rcases le_total (maxCoeff f n) (f (n + 1)) with h' | h'
      · exact ⟨n + 1, by omega, by rw [maxCoeff, max_eq_right h']⟩
      · exact ⟨j, by omega, by rw [maxCoeff, max_eq_left h', e]⟩
    · intro i hi
      rw [maxCoeff]
      rcases Nat.lt_or_ge i (n + 1) with h' | h'
      · exact le_max_of_le_left (h i h')
      · rw [show i = n + 1 by omega]
        exact le_max_right _ _

theorem minCoeff_spec (f : Nat → R) (n : Nat) :
    (∃ i < n + 1, minCoeff f n = f i) ∧ ∀ i < n + 1, minCoeff f n ≤ f i := by
  induction n with
  | zero =>
    refine ⟨⟨0, by omega, rfl⟩, fun i hi => ?_⟩
    rw [show i = 0 by omega]
    exact le_rfl
  | succ n ih =>
    obtain ⟨⟨j, hj, e⟩, h⟩ := ih
    constructor
    · rcases le_total (minCoeff f n) (f (n + 1)) with h' | h'
      · exact ⟨j, by omega, by rw [minCoeff, min_eq_left h', e]⟩
      · exact ⟨n + 1, by omega, by rw [minCoeff, min_eq_right h']⟩
    · intro i hi
      rw [minCoeff]
      rcases Nat.lt_or_ge i (n + 1) with h' | h'
      · exact min_le_of_left_le (h i h')
      · rw [show i = n + 1 by omega]
        exact min_le_right _ _

theorem negativeSlack_eq (o : Con R) (k : R) {ny : Nat} (y : Nat → R) (h : o.m ≤ ny) :
    negativeSlack o k ny y = .ok fun i => -slack o k y i := by
  unfold negativeSlack
  rw [if_neg (by omega)]
  congr 1
  funext i
  unfold slack
  ring

theorem sum_list_range (f : Nat → R) (n : Nat) :
    ((List.range n).map f).sum = ∑ i ∈ range n, f i := by
  induction n with
  | zero => simp
  | succ n ih => rw [List.range_succ, List.map_append, List.sum_append, ih, sum_range_succ]; simp

end Verif.Linear
