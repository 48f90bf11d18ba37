import Verif.Lemmas.HyperTests
import Mathlib.Algebra.Order.Ring.Rat
import Mathlib.Tactic.NormNum
import Mathlib.Tactic.FieldSimp
import Mathlib.Tactic.Ring

/-!
# C107: the tests for equal and for Hermitian matrices

`IsHermitian` guards `ApproximateEigenvalues` (in an assertion, jordan_matrix_algebra.cc 243) and
both are the oracles of the tests of the repository.
-/

namespace Verif.HyperTests

open Verif.Hyper Finset

variable {K : Type} [Field K] [LinearOrder K]

namespace Spec

/-- The conjugate of entry `(c, r)`, the value entry `(r, c)` of a Hermitian matrix has: component
0 stays, the others change sign. -/
def adjoint {d m : Nat} (w : Fin d → Fin m → Fin m → K) (i : Fin d) (r c : Fin m) : K :=
  if i.1 = 0 then w i c r else -w i c r

/-- Matrices without NaN as arguments of the code. -/
def finite {d m k : Nat} (w : Fin d → Fin m → Fin k → K) : Hyp d (Fin m) (Fin k) (Option K) :=
  fun i => Matrix.of fun r c => some (w i r c)

end Spec

variable [IsStrictOrderedRing K]

/-- **C107.** What `IsHermitian` says about a matrix without NaN: an accepted matrix differs from
its adjoint by at most `1e-12` in every entry, and a matrix of order `m` that differs by at most
`1e-12 / m` in every entry is accepted; in particular every Hermitian matrix is. -/
theorem C107_hermitian_partial {d m : Nat} (w : Fin d → Fin m → Fin m → K) :
    (isHermitian (Spec.finite w) = true →
      ∀ i r c, |w i r c - Spec.adjoint w i r c| ≤ 1 / 10 ^ 12) ∧
    ((∀ i r c, |w i r c - Spec.adjoint w i r c| ≤ 1 / 10 ^ 12 / m) →
      isHermitian (Spec.finite w) = true) := by
  have key : ∀ i : Fin d, (normSq fun r c =>
      if i.1 = 0 then subN (Spec.finite w i r c) (Spec.finite w i c r)
        else addN (Spec.finite w i r c) (Spec.finite w i c r))
      = normSq fun r c => some (w i r c - Spec.adjoint w i r c) := by
    intro i
    congr 1
    funext r c
    by_cases h : i.1 = 0 <;> simp [h, Spec.finite, Spec.adjoint, subN, addN]
  constructor
  · intro h i r c
    simp only [isHermitian, List.all_eq_true, List.mem_finRange, Bool.not_eq_true', true_implies,
      key] at h
    exact not_exceeds_entry (by positivity) (h i) r c
  · intro h
    simp only [isHermitian, List.all_eq_true, List.mem_finRange, Bool.not_eq_true', true_implies,
      key]
    intro i
    refine not_exceeds_of_small (b := 1 / 10 ^ 12 / m) (by positivity) ?_ (h i)
    rcases Nat.eq_zero_or_pos m with rfl | hm
    · simp
    · have : (m : K) ≠ 0 := by positivity
      refine le_of_eq ?_
      field_simp

/-- A Hermitian matrix that is not zero, of order 2 over the complex numbers. -/
example : ∀ (i : Fin 2) (r c : Fin 2),
    |(![![![1, 2], ![2, 3]], ![![0, 5], ![-5, 0]]] : Fin 2 → Fin 2 → Fin 2 → ℚ) i r c
      - Spec.adjoint ![![![1, 2], ![2, 3]], ![![0, 5], ![-5, 0]]] i r c| ≤ 1 / 10 ^ 12 / (2 : Nat) := by
  decide +kernel

/-- **C107.** `IsEqual` on matrices without NaN: accepted matrices differ by at most `1e-8` in every
entry, and matrices that differ by at most `b` with `m k b² ≤ 1e-16` are accepted. -/
theorem C107_equal_partial {d m k : Nat} (x y : Fin d → Fin m → Fin k → K) :
    (isEqual (Spec.finite x) (Spec.finite y) = true →
      ∀ i r c, |x i r c - y i r c| ≤ 1 / 10 ^ 8) ∧
    (∀ b, 0 ≤ b → (m : K) * k * (b * b) ≤ 1 / 10 ^ 16 → (∀ i r c, |x i r c - y i r c| ≤ b) →
      isEqual (Spec.finite x) (Spec.finite y) = true) := by
  have key : ∀ i : Fin d, (normSq fun r c => subN (Spec.finite x i r c) (Spec.finite y i r c))
      = normSq fun r c => some (x i r c - y i r c) := fun i => rfl
  constructor
  · intro h i r c
    simp only [isEqual, List.all_eq_true, List.mem_finRange, Bool.not_eq_true', true_implies,
      key] at h
    exact not_exceeds_entry (by positivity) (h i) r c
  · intro b hb hs h
    simp only [isEqual, List.all_eq_true, List.mem_finRange, Bool.not_eq_true', true_implies, key]
    intro i
    refine not_exceeds_of_small hb (hs.trans (le_of_eq ?_)) (h i)
    norm_num

example : (0 : ℚ) ≤ 1 / 10 ^ 9 ∧ ((2 : Nat) : ℚ) * (1 : Nat) * (1 / 10 ^ 9 * (1 / 10 ^ 9)) ≤ 1 / 10 ^ 16 ∧
    ∀ (i : Fin 1) (r : Fin 2) (c : Fin 1),
      |(fun _ _ _ => 1 : Fin 1 → Fin 2 → Fin 1 → ℚ) i r c
        - (fun _ _ _ => 1 + 1 / 10 ^ 9 : Fin 1 → Fin 2 → Fin 1 → ℚ) i r c| ≤ 1 / 10 ^ 9 := by
  decide +kernel

omit [IsStrictOrderedRing K] in
/-- **C107 (violated).** A matrix with NaN in every component is Hermitian and equal to every other
matrix, whatever its other entries are. -/
theorem C107_nan_violated {d m : Nat} (w : Hyp d (Fin m) (Fin m) (Option K))
    (hn : ∀ i, ∃ r c, w i r c = none) :
    isHermitian w = true ∧ ∀ y, isEqual w y = true := by
  constructor
  · simp only [isHermitian, List.all_eq_true, List.mem_finRange, Bool.not_eq_true', true_implies]
    intro i
    obtain ⟨r, c, h⟩ := hn i
    rw [normSq_nan _ r c (by by_cases h0 : i.1 = 0 <;> simp [h0, h, subN, addN])]
    rfl
  · intro y
    simp only [isEqual, List.all_eq_true, List.mem_finRange, Bool.not_eq_true', true_implies]
    intro i
    obtain ⟨r, c, h⟩ := hn i
    rw [normSq_nan _ r c (by simp [h, subN])]
    rfl

example : ∀ i : Fin 1, ∃ r c : Fin 2,
    (fun _ => Matrix.of ![![none, some 1], ![some 7, some 2]] :
      Hyp 1 (Fin 2) (Fin 2) (Option ℚ)) i r c = none :=
  fun _ => ⟨0, 0, rfl⟩

/-- **C107 (violated).** The answer depends on the scale: `[[0, 1e-13], [0, 0]]` is accepted and
`[[0, 1], [0, 0]]` is not. -/
theorem C107_scale_violated :
    isHermitian (Spec.finite (fun _ => ![![0, 1 / 10 ^ 13], ![0, 0]] : Fin 1 → Fin 2 → Fin 2 → ℚ))
      = true ∧
    isHermitian (Spec.finite (fun _ => ![![0, 1], ![0, 0]] : Fin 1 → Fin 2 → Fin 2 → ℚ)) = false := by
  decide +kernel

end Verif.HyperTests
