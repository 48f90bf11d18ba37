import Mathlib.Algebra.BigOperators.Intervals
import Mathlib.Algebra.BigOperators.Ring.Finset
import Mathlib.Algebra.Order.Interval.Finset.Basic
import Mathlib.Tactic.Ring
import Mathlib.Tactic.LinearCombination

/-!
# Block substitution and block factorisation, abstractly

`st k` is the first index of block `k`. `F` is a block lower triangular matrix.
-/

namespace Verif.Sup

open Finset

variable {R : Type} [CommRing R]

theorem st_mono {st : Nat → Nat} {n : Nat} (hst : ∀ k, k < n → st k ≤ st (k + 1)) :
    ∀ {a b : Nat}, a ≤ b → b ≤ n → st a ≤ st b := by
  intro a b hab
  induction b with
  | zero => intro _; simp at hab; subst hab; exact le_rfl
  | succ b ih =>
    intro hb
    rcases Nat.lt_or_ge a (b + 1) with h | h
    · exact le_trans (ih (by omega) (by omega)) (hst b (by omega))
    · have : a = b + 1 := by omega
      subst this; exact le_rfl

/-- Forward substitution, column oriented. -/
theorem forward_abs (st : Nat → Nat) (n : Nat) (h0 : st 0 = 0)
    (hst : ∀ k, k < n → st k ≤ st (k + 1)) (F : Nat → Nat → R)
    (hz : ∀ k, k < n → ∀ i j, i < st (k + 1) → st (k + 1) ≤ j → F i j = 0)
    (y : Nat → Nat → R)
    (hkeep : ∀ k, k < n → ∀ i, i < st k → y (k + 1) i = y k i)
    (hsolve : ∀ k, k < n → ∀ i, st k ≤ i → i < st (k + 1) →
      ∑ j ∈ Ico (st k) (st (k + 1)), F i j * y (k + 1) j = y k i)
    (hup : ∀ k, k < n → ∀ i, st (k + 1) ≤ i → i < st n →
      y (k + 1) i = y k i - ∑ j ∈ Ico (st k) (st (k + 1)), F i j * y (k + 1) j) :
    ∀ i, i < st n → ∑ j ∈ range (st n), F i j * y n j = y 0 i := by
  have key : ∀ m, m ≤ n →
      (∀ i, i < st m → ∑ j ∈ range (st m), F i j * y m j = y 0 i) ∧
      (∀ i, st m ≤ i → i < st n → y m i = y 0 i - ∑ j ∈ range (st m), F i j * y m j) := by
    intro m
    induction m with
    | zero => intro _; simp [h0]
    | succ m ih =>
      intro hm
      obtain ⟨i1, i2⟩ := ih (by omega)
      have hle := hst m (by omega)
      have hsplit : ∀ i, ∑ j ∈ range (st (m + 1)), F i j * y (m + 1) j =
          ∑ j ∈ range (st m), F i j * y m j +
          ∑ j ∈ Ico (st m) (st (m + 1)), F i j * y (m + 1) j := by
        intro i
        rw [range_eq_Ico, ← sum_Ico_consecutive _ (Nat.zero_le _) hle]
        congr 1
        rw [range_eq_Ico]
        refine sum_congr rfl fun j hj => ?_
        rw [mem_Ico] at hj
        rw [hkeep m (by omega) j hj.2]
      constructor
      · intro i hi
        rw [hsplit]
        by_cases him : i < st m
        · rw [i1 i him]
          rw [sum_eq_zero, add_zero]
          intro j hj
          rw [mem_Ico] at hj
          have : m ≠ 0 := by rintro rfl; omega
          have hz' := hz (m - 1) (by omega) i j (by rwa [show m - 1 + 1 = m by omega])
            (by rw [show m - 1 + 1 = m by omega]; exact hj.1)
          rw [hz', zero_mul]
        · rw [hsolve m (by omega) i (by omega) hi,
            i2 i (by omega) (lt_of_lt_of_le hi (st_mono hst hm le_rfl))]
          ring
      · intro i hi hin
        rw [hup m (by omega) i hi hin, i2 i (by omega) hin, hsplit]
        ring
  exact (key n le_rfl).1

/-- Backward substitution with the transpose; `x (k + 1)` is the vector before block `k`. -/
theorem backward_abs (st : Nat → Nat) (n : Nat) (h0 : st 0 = 0)
    (hst : ∀ k, k < n → st k ≤ st (k + 1)) (F : Nat → Nat → R)
    (hz : ∀ k, k < n → ∀ i j, i < st (k + 1) → st (k + 1) ≤ j → F i j = 0)
    (x : Nat → Nat → R)
    (hkeep : ∀ k, k < n → ∀ i, st (k + 1) ≤ i → i < st n → x k i = x (k + 1) i)
    (hsolve : ∀ k, k < n → ∀ i, st k ≤ i → i < st (k + 1) →
      ∑ j ∈ Ico (st k) (st (k + 1)), F j i * x k j = x (k + 1) i)
    (hup : ∀ k, k < n → ∀ i, i < st k →
      x k i = x (k + 1) i - ∑ j ∈ Ico (st k) (st (k + 1)), F j i * x k j) :
    ∀ i, i < st n → ∑ j ∈ range (st n), F j i * x 0 j = x n i := by
  have key : ∀ t, t ≤ n → ∀ m, m + t = n →
      (∀ i, st m ≤ i → i < st n → ∑ j ∈ Ico (st m) (st n), F j i * x m j = x n i) ∧
      (∀ i, i < st m → x m i = x n i - ∑ j ∈ Ico (st m) (st n), F j i * x m j) := by
    intro t
    induction t with
    | zero =>
      intro _ m hm
      have : m = n := by omega
      subst this
      refine ⟨fun i h1 h2 => by omega, fun i _ => by simp⟩
    | succ t ih =>
      intro ht m hm
      obtain ⟨i1, i2⟩ := ih (by omega) (m + 1) (by omega)
      have hle := hst m (by omega)
      have hle2 := st_mono hst (show m + 1 ≤ n by omega) le_rfl
      have hsplit : ∀ i, ∑ j ∈ Ico (st m) (st n), F j i * x m j =
          ∑ j ∈ Ico (st m) (st (m + 1)), F j i * x m j +
          ∑ j ∈ Ico (st (m + 1)) (st n), F j i * x (m + 1) j := by
        intro i
        rw [← sum_Ico_consecutive _ hle hle2]
        congr 1
        refine sum_congr rfl fun j hj => ?_
        rw [mem_Ico] at hj
        rw [hkeep m (by omega) j hj.1 hj.2]
      constructor
      · intro i h1 h2
        rw [hsplit]
        by_cases him : i < st (m + 1)
        · rw [hsolve m (by omega) i h1 him, i2 i him]
          ring
        · rw [i1 i (by omega) h2, sum_eq_zero, zero_add]
          intro j hj
          rw [mem_Ico] at hj
          rw [hz m (by omega) j i hj.2 (by omega), zero_mul]
      · intro i hi
        rw [hup m (by omega) i hi, i2 i (by omega), hsplit]
        ring
  intro i hi
  have := (key n le_rfl 0 (by omega)).1 i (by omega) hi
  rwa [h0, ← range_eq_Ico] at this

/-- Right-looking block factorisation; `S k` is the trailing matrix before block `k`. -/
theorem factor_abs (st : Nat → Nat) (n : Nat) (h0 : st 0 = 0)
    (hst : ∀ k, k < n → st k ≤ st (k + 1)) (F : Nat → Nat → R) (D : Nat → R)
    (hz : ∀ k, k < n → ∀ i j, i < st (k + 1) → st (k + 1) ≤ j → F i j = 0)
    (S : Nat → Nat → Nat → R)
    (hcol : ∀ k, k < n → ∀ i j, st k ≤ j → j < st (k + 1) → j ≤ i → i < st n →
      S k i j = ∑ l ∈ Ico (st k) (st (k + 1)), F i l * D l * F j l)
    (hup : ∀ k, k < n → ∀ i j, st (k + 1) ≤ j → j ≤ i → i < st n →
      S (k + 1) i j = S k i j - ∑ l ∈ Ico (st k) (st (k + 1)), F i l * D l * F j l) :
    ∀ i j, j ≤ i → i < st n → S 0 i j = ∑ l ∈ range (st n), F i l * D l * F j l := by
  have key : ∀ m, m ≤ n →
      (∀ i j, j ≤ i → i < st n → st m ≤ j →
        S 0 i j = S m i j + ∑ l ∈ range (st m), F i l * D l * F j l) ∧
      (∀ i j, j ≤ i → i < st n → j < st m →
        S 0 i j = ∑ l ∈ range (st m), F i l * D l * F j l) := by
    intro m
    induction m with
    | zero => intro _; simp [h0]
    | succ m ih =>
      intro hm
      obtain ⟨i1, i2⟩ := ih (by omega)
      have hle := hst m (by omega)
      have hsplit : ∀ i j, ∑ l ∈ range (st (m + 1)), F i l * D l * F j l =
          ∑ l ∈ range (st m), F i l * D l * F j l +
          ∑ l ∈ Ico (st m) (st (m + 1)), F i l * D l * F j l := by
        intro i j
        rw [range_eq_Ico, ← sum_Ico_consecutive _ (Nat.zero_le _) hle, range_eq_Ico]
      constructor
      · intro i j h1 h2 h3
        rw [i1 i j h1 h2 (by omega), hup m (by omega) i j h3 h1 h2, hsplit]
        ring
      · intro i j h1 h2 h3
        rw [hsplit]
        by_cases hj : j < st m
        · rw [i2 i j h1 h2 hj]
          conv_lhs => rw [← add_zero (∑ l ∈ range (st m), F i l * D l * F j l)]
          congr 1
          symm
          refine sum_eq_zero fun l hl => ?_
          rw [mem_Ico] at hl
          have : m ≠ 0 := by rintro rfl; omega
          have hz' := hz (m - 1) (by omega) j l (by rwa [show m - 1 + 1 = m by omega])
            (by rw [show m - 1 + 1 = m by omega]; exact hl.1)
          rw [hz', mul_zero]
        · rw [i1 i j h1 h2 (by omega), hcol m (by omega) i j (by omega) h3 h1 h2]
          ring
  intro i j h1 h2
  exact (key n le_rfl).2 i j h1 h2 (by omega)

/-- `F D Fᵀ x = b` when `F y = b`, `D z = y`, `Fᵀ x = z`. -/
theorem solve_abs (N : Nat) (M F : Nat → Nat → R) (D b y z x : Nat → R)
    (hM : ∀ i j, i < N → j < N → M i j = ∑ l ∈ range N, F i l * D l * F j l)
    (h1 : ∀ i, i < N → ∑ j ∈ range N, F i j * y j = b i)
    (h2 : ∀ i, i < N → D i * z i = y i)
    (h3 : ∀ i, i < N → ∑ j ∈ range N, F j i * x j = z i) :
    ∀ i, i < N → ∑ j ∈ range N, M i j * x j = b i := by
  intro i hi
  rw [← h1 i hi]
  calc ∑ j ∈ range N, M i j * x j
      = ∑ j ∈ range N, ∑ l ∈ range N, F i l * D l * (F j l * x j) := by
        refine sum_congr rfl fun j hj => ?_
        rw [hM i j hi (mem_range.1 hj), sum_mul]
        exact sum_congr rfl fun l _ => by ring
    _ = ∑ l ∈ range N, ∑ j ∈ range N, F i l * D l * (F j l * x j) := sum_comm
    _ = ∑ l ∈ range N, F i l * y l := by
        refine sum_congr rfl fun l hl => ?_
        rw [← mul_sum, h3 l (mem_range.1 hl), mul_assoc, h2 l (mem_range.1 hl)]

end Verif.Sup
