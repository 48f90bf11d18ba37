import Verif.Model.HyperTests
import Mathlib.Algebra.Order.BigOperators.Group.Finset
import Mathlib.Algebra.Order.Ring.Abs
import Mathlib.Tactic.Positivity
import Mathlib.Tactic.Linarith

/-! # Lemmas about the comparisons of matrices -/

namespace Verif.HyperTests

open Verif.Hyper Finset

variable {K : Type} [Field K] [LinearOrder K]

omit [LinearOrder K] in
theorem normSq_some {m k : Nat} (M : Fin m → Fin k → K) :
    normSq (fun r c => some (M r c)) = some (∑ r, ∑ c, M r c * M r c) := by
  simp [normSq]

omit [LinearOrder K] in
theorem normSq_nan {m k : Nat} (M : Fin m → Fin k → Option K) (r : Fin m) (c : Fin k)
    (h : M r c = none) : normSq M = none := by
  unfold normSq
  rw [if_neg]
  intro hs
  have := hs r c
  simp [h] at this

variable [IsStrictOrderedRing K]

theorem entry_le {m k : Nat} (M : Fin m → Fin k → K) (r : Fin m) (c : Fin k) :
    M r c * M r c ≤ ∑ r, ∑ c, M r c * M r c := by
  have h1 : M r c * M r c ≤ ∑ c, M r c * M r c :=
    single_le_sum (f := fun c => M r c * M r c) (fun i _ => mul_self_nonneg _) (mem_univ c)
  have h2 : ∑ c, M r c * M r c ≤ ∑ r, ∑ c, M r c * M r c :=
    single_le_sum (f := fun r => ∑ c, M r c * M r c)
      (fun i _ => sum_nonneg fun j _ => mul_self_nonneg _) (mem_univ r)
  exact h1.trans h2

theorem not_exceeds_entry {m k : Nat} {M : Fin m → Fin k → K} {eps : K} (he : 0 < eps)
    (h : exceeds (normSq fun r c => some (M r c)) eps = false) (r : Fin m) (c : Fin k) :
    |M r c| ≤ eps := by
  rw [normSq_some] at h
  simp only [exceeds, decide_eq_false_iff_not, not_lt] at h
  have := (entry_le M r c).trans h
  exact abs_le_of_sq_le_sq' (by simpa [sq] using this) he.le |> abs_le.mpr

theorem not_exceeds_of_small {m k : Nat} {M : Fin m → Fin k → K} {eps b : K} (hb : 0 ≤ b)
    (hs : (m : K) * k * (b * b) ≤ eps * eps) (h : ∀ r c, |M r c| ≤ b) :
    exceeds (normSq fun r c => some (M r c)) eps = false := by
  rw [normSq_some]
  simp only [exceeds, decide_eq_false_iff_not, not_lt]
  refine le_trans ?_ hs
  have : ∀ r c, M r c * M r c ≤ b * b := fun r c => by
    rw [← abs_mul_abs_self]
    exact mul_le_mul (h r c) (h r c) (abs_nonneg _) hb
  calc ∑ r, ∑ c, M r c * M r c ≤ ∑ _r : Fin m, ∑ _c : Fin k, b * b :=
        sum_le_sum fun r _ => sum_le_sum fun c _ => this r c
    _ = (m : K) * k * (b * b) := by simp [mul_assoc]

end Verif.HyperTests
