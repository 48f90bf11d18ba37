import Verif.Model.Peirce
import Mathlib.Tactic.Ring
import Mathlib.Tactic.LinearCombination

/-! # Lemmas about the Peirce decomposition -/

namespace Verif.Peirce

variable {K : Type*} [Field K]

theorem dotL_residual (a b : K) : ∀ (q x : List K), q.length = x.length →
    dotL q (List.zipWith (· - ·) (List.zipWith (· - ·) x (q.map (a * ·))) (q.map (b * ·)))
      = dotL q x - (a + b) * dotL q q
  | [], [], _ => by simp [dotL]
  | c :: q, d :: x, h => by
    have := dotL_residual a b q x (by simpa using h)
    simp only [List.map_cons, List.zipWith_cons_cons, dotL, this]
    ring

theorem dotL_eq_sum : ∀ q x : List K, dotL q x = (List.zipWith (· * ·) q x).sum
  | [], _ => by simp [dotL]
  | _ :: _, [] => by simp [dotL]
  | a :: q, b :: x => by simp [dotL, dotL_eq_sum q x]

/-- What the statements of the transformation compute when the sizes fit. -/
theorem transformSized_ok {n : Nat} {q x1 : List K} (x0 : K) (hq : q.length = n)
    (hx : x1.length = n) :
    transformSized (n + 1 : Nat) (n + 1) q (x0 :: x1)
      = .ok ⟨(x0 / 2 + dotL q x1 / 2) :: q.map ((x0 / 2 + dotL q x1 / 2) * ·),
          (x0 / 2 - dotL q x1 / 2) :: q.map ((dotL q x1 / 2 - x0 / 2) * ·),
          (x0 - (x0 / 2 + dotL q x1 / 2) - (x0 / 2 - dotL q x1 / 2)) ::
            List.zipWith (· - ·)
              (List.zipWith (· - ·) x1 (q.map ((x0 / 2 + dotL q x1 / 2) * ·)))
              (q.map ((dotL q x1 / 2 - x0 / 2) * ·))⟩ := by
  have ht : tail (x0 :: x1) (((n + 1 : Nat) : Int) - 1) = .ok x1 := by
    simp [tail, hx]
  have hd : dot q x1 = .ok (dotL q x1) := by simp [dot, hq, hx]
  simp only [transformSized, first, ht, hd, Outcome.bind_ok]
  simp [build, sub, hq, hx]

omit [Field K] in
theorem tail_length {x v : List K} {k : Int} (h : tail x k = .ok v) : (v.length : Int) = k := by
  unfold tail at h
  split at h
  · simp only [Outcome.ok.injEq] at h
    subst h
    simp only [List.length_drop]
    omega
  · cases h

/-- A vector of the wrong size makes the transformation undefined. -/
theorem transformSized_ub {size : Int} {alloc : Nat} {q x : List K}
    (h : (q.length : Int) ≠ size - 1) : transformSized size alloc q x = .ub := by
  unfold transformSized
  cases x with
  | nil => rfl
  | cons x0 x1 =>
    simp only [first, Outcome.bind_ok]
    cases ht : tail (x0 :: x1) (size - 1) with
    | ok v =>
      have hl := tail_length ht
      have : q.length ≠ v.length := by
        intro e
        exact h (by rw [e]; exact hl)
      simp [dot, this]
    | ub => rfl
    | throws => unfold tail at ht; split at ht <;> cases ht
    | diverges => unfold tail at ht; split at ht <;> cases ht

end Verif.Peirce
