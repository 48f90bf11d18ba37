import Verif.Model.FactorNorm
import Mathlib.Algebra.BigOperators.Intervals
import Mathlib.Algebra.Order.BigOperators.Group.Finset
import Mathlib.Algebra.Order.Ring.Abs

/-! # Lemmas about the norm that `RLDLT` records -/

namespace Verif.Dense

open Finset

variable {R : Type} [Field R] [LinearOrder R]

omit [Field R] in
theorem foldl_max (f : Nat → R) (l : List Nat) (c : R) :
    c ≤ l.foldl (fun acc k => if acc < f k then f k else acc) c ∧
    (∀ k ∈ l, f k ≤ l.foldl (fun acc k => if acc < f k then f k else acc) c) ∧
    (l.foldl (fun acc k => if acc < f k then f k else acc) c = c ∨
      ∃ k ∈ l, l.foldl (fun acc k => if acc < f k then f k else acc) c = f k) := by
  induction l generalizing c with
  | nil => simp
  | cons a l ih =>
    simp only [List.foldl_cons]
    obtain ⟨h1, h2, h3⟩ := ih (if c < f a then f a else c)
    have hc : c ≤ (if c < f a then f a else c) := by split <;> [exact le_of_lt ‹_›; exact le_refl _]
    have ha : f a ≤ (if c < f a then f a else c) := by
      split <;> [exact le_refl _; exact not_lt.1 ‹_›]
    refine ⟨hc.trans h1, ?_, ?_⟩
    · intro k hk
      rcases List.mem_cons.1 hk with rfl | hk
      · exact ha.trans h1
      · exact h2 k hk
    · rcases h3 with h3 | ⟨k, hk, h3⟩
      · rw [h3]
        split
        · exact .inr ⟨a, List.mem_cons_self, rfl⟩
        · exact .inl rfl
      · exact .inr ⟨k, List.mem_cons_of_mem _ hk, h3⟩

theorem ldltLoop_ret (size : Nat) (m : Nat → Nat → R) (k : Nat) :
    (ldltLoop size m k).ret = !(ldltLoop size m k).reg := by
  induction k with
  | zero => rfl
  | succ k ih => simp [ldltLoop, ldltStep, ih]

/-- The sum of the code is the sum of a column of the symmetric matrix. -/
theorem absColSum_eq {size : Nat} (a : Nat → Nat → R) {col : Nat} (hc : col < size) :
    absColSum size a col = ∑ i ∈ range size, |if col ≤ i then a i col else a col i| := by
  obtain ⟨k, rfl⟩ : ∃ k, size = col + k := ⟨size - col, by omega⟩
  rw [sum_range_add, absColSum, add_comm]
  congr 1
  · refine sum_congr rfl fun j hj => ?_
    rw [if_neg (by simpa using hj)]
  · rw [Nat.add_sub_cancel_left]
    refine sum_congr rfl fun j _ => ?_
    rw [if_pos (by omega)]

end Verif.Dense
