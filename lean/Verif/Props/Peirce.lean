import Verif.Lemmas.Peirce
import Mathlib.Tactic.FieldSimp
import Mathlib.Algebra.Order.Ring.Rat
import Mathlib.Data.Rat.Defs

/-!
# C106: the Peirce components of a vector

The comment above `TransformToPeirceComponents` (soc_constraint.cc 70-81) promises the orthogonal
projections of `x` on `span (1, q)`, on `span (1, -q)` and on the orthogonal complement
`{(0, p) : <p, q> = 0}`, which add up to `x`.
-/

namespace Verif.Peirce

variable {K : Type*} [Field K]

namespace Spec

/-- The scalar product of two vectors. -/
def inner (a b : List K) : K := (List.zipWith (· * ·) a b).sum

/-- The promise of the comment for the unit vector `q` and the vector `x`: `x00 = a (1, q)`,
`x11 = b (1, -q)`, `x01 = (0, p)` with `<q, p> = 0`, and the sum is `x` in every entry. -/
def Decomposes (q x : List K) (c : Components K) : Prop :=
  (∃ a, c.x00 = a :: q.map (fun t => a * t)) ∧
  (∃ b, c.x11 = b :: q.map (fun t => -(b * t))) ∧
  (∃ p, c.x01 = 0 :: p ∧ inner q p = 0) ∧
  ∀ i, i < x.length →
    c.x00.getD i 0 + c.x11.getD i 0 + c.x01.getD i 0 = x.getD i 0

end Spec

/-- **C106 (violated).** The code never delivers the components: whatever the vector, the scalar
product of `q_`, which has `n_` entries, with the last `n_ - 1` entries of `x` is undefined. -/
theorem C106_transform_violated (n : Nat) (q x : List K) (hq : q.length = n) :
    transform n q x = .ub ∧ ¬ ∃ c, transform n q x = .ok c ∧ Spec.Decomposes q x c := by
  have h : transform n q x = .ub := by
    unfold transform
    exact transformSized_ub (by omega)
  refine ⟨h, ?_⟩
  rintro ⟨c, hc, -⟩
  rw [h] at hc
  cases hc

example : ([3/5, 4/5] : List ℚ).length = 2 := rfl

/-- The input of the violation has a decomposition: (5, 1, 2) for `q = (3/5, 4/5)`. -/
example : ∃ c, Spec.Decomposes ([3/5, 4/5] : List ℚ) [5, 1, 2] c :=
  ⟨⟨[18/5, 54/25, 72/25], [7/5, -21/25, -28/25], [0, -8/25, 6/25]⟩,
    ⟨18/5, by decide +kernel⟩, ⟨7/5, by decide +kernel⟩,
    ⟨[-8/25, 6/25], by decide +kernel, by decide +kernel⟩, by decide +kernel⟩

/-- **C106 (violated).** The scalar product of `EssentialVectorOfDiagonalPeirceComponents` is
undefined for `z = (z0, z1)` of `n_ + 1` entries, which the comment announces, and for the
essential vector `z1` of `n_` entries. -/
theorem C106_essential_violated (n : Nat) (q z : List K)
    (hz : z.length = n + 1 ∨ z.length = n) : essential n q z = .ub := by
  unfold essential
  cases ht : tail q (n - 1 : Int) with
  | ok v =>
    have hl := tail_length ht
    have : v.length ≠ z.length := by omega
    simp [dot, this]
  | ub => rfl
  | throws => unfold tail at ht; split at ht <;> cases ht
  | diverges => unfold tail at ht; split at ht <;> cases ht

example : ([5, 1, 2] : List ℚ).length = 2 + 1 ∨ ([5, 1, 2] : List ℚ).length = 2 := .inl rfl

/-- **C106 (partial).** With `size = n_ + 1` and components of `n_ + 1` entries the same statements
keep the promise for every `x` of `n_ + 1` entries and every unit vector `q`.  Missing: the code
uses `size = n_` and components of `n_ + 2` entries, see `C106_transform_violated`. -/
theorem C106_transform_partial (h2 : (2 : K) ≠ 0) (n : Nat) (q x : List K) (hq : q.length = n)
    (hx : x.length = n + 1) (hunit : Spec.inner q q = 1) :
    ∃ c, transformSized (n + 1 : Nat) (n + 1) q x = .ok c ∧ Spec.Decomposes q x c := by
  obtain ⟨x0, x1, rfl⟩ : ∃ x0 x1, x = x0 :: x1 := by
    cases x with
    | nil => simp at hx
    | cons a l => exact ⟨a, l, rfl⟩
  have hx1 : x1.length = n := by simpa using hx
  refine ⟨_, transformSized_ok x0 hq hx1, ⟨_, rfl⟩, ⟨x0 / 2 - dotL q x1 / 2, ?_⟩,
    ⟨List.zipWith (· - ·) (List.zipWith (· - ·) x1 (q.map ((x0 / 2 + dotL q x1 / 2) * ·)))
      (q.map ((dotL q x1 / 2 - x0 / 2) * ·)), ?_, ?_⟩, ?_⟩
  · refine congrArg (_ :: ·) ?_
    apply List.map_congr_left
    intro t _
    ring
  · exact congrArg (· :: _) (by field_simp; ring)
  · rw [Spec.inner, ← dotL_eq_sum] at hunit
    rw [Spec.inner, ← dotL_eq_sum, dotL_residual _ _ _ _ (by rw [hq, hx1]), hunit]
    field_simp
    ring
  · intro i hi
    cases i with
    | zero =>
      simp
      field_simp
      ring
    | succ i =>
      have hi1 : i < x1.length := by simpa using hi
      have hi2 : i < q.length := by omega
      simp [List.getD, hi1, hi2]

example : (2 : ℚ) ≠ 0 ∧ ([3/5, 4/5] : List ℚ).length = 2 ∧ ([5, 1, 2] : List ℚ).length = 2 + 1 ∧
    Spec.inner ([3/5, 4/5] : List ℚ) [3/5, 4/5] = 1 := by decide +kernel

/-- **C106.** When `EssentialVectorOfDiagonalPeirceComponents` is defined: `z` has `n_ - 1`
entries; it is then `q_` times the scalar product with the last `n_ - 1` entries of `q_`. -/
theorem C106_essential_domain (n : Nat) (q z v : List K) (hq : q.length = n) :
    essential n q z = .ok v ↔
      z.length + 1 = n ∧ v = q.map (fun t => t * Spec.inner (q.drop 1) z) := by
  by_cases hz : z.length + 1 = n
  · have ht : tail q (n - 1 : Int) = .ok (q.drop 1) := by
      unfold tail
      rw [if_pos (by omega)]
      congr 2
      omega
    have : (q.drop 1).length = z.length := by simp; omega
    unfold essential
    rw [ht, Outcome.bind_ok]
    simp only [dot, if_pos this, Outcome.bind_ok, Outcome.ok.injEq, hz, true_and, Spec.inner,
      dotL_eq_sum]
    exact eq_comm
  · constructor
    · intro hv
      unfold essential at hv
      cases ht : tail q (n - 1 : Int) with
      | ok w =>
        have hl := tail_length ht
        rw [ht, Outcome.bind_ok] at hv
        by_cases hw : w.length = z.length
        · omega
        · simp [dot, hw] at hv
      | ub => rw [ht] at hv; cases hv
      | throws => rw [ht] at hv; cases hv
      | diverges => rw [ht] at hv; cases hv
    · rintro ⟨h, -⟩
      exact absurd h hz

example : ([3/5, 4/5] : List ℚ).length = 2 := rfl

end Verif.Peirce
