import Verif.Model.FactorSolve
import Verif.Lemmas.FactorSign

/-!
# Lemmas about solving with a dense factorization
-/

namespace Verif.Dense

open Finset

variable {R : Type} [Field R] [LinearOrder R]

theorem unitLower_eq (m : Nat → Nat → R) (i l : Nat) : unitLower m i l = Spec.unit m i l := by
  unfold unitLower Spec.unit
  by_cases h1 : l < i
  · simp [h1, show i ≠ l by omega]
  · simp [h1]

/-- The inverse of a permutation of the first `n` indices. -/
theorem symm_lt {n : Nat} (p : Equiv.Perm Nat) (h : ∀ i, i < n → p i < n) (i : Nat) (hi : i < n) :
    p.symm i < n := by
  have he : (range n).image p = range n := by
    apply eq_of_subset_of_card_le
    · intro x hx
      obtain ⟨i, hi, rfl⟩ := mem_image.1 hx
      exact mem_range.2 (h i (mem_range.1 hi))
    · rw [card_image_of_injective _ p.injective]
  have : i ∈ (range n).image p := by rw [he]; exact mem_range.2 hi
  obtain ⟨j, hj, rfl⟩ := mem_image.1 this
  simpa using mem_range.1 hj

/-- The reconstructed matrix is the factorized one. -/
theorem reconstructed_eq {n : Nat} {f : Factor R} {A : Nat → Nat → R}
    (hp : ∀ i, i < n → permOf f.tr i < n) (hA : Spec.Factorizes n f.mat (permOf f.tr) A)
    (i j : Nat) (hi : i < n) (hj : j < n) : f.reconstructed n i j = A i j := by
  have hi' := symm_lt _ hp i hi
  have hj' := symm_lt _ hp j hj
  have h := hA _ hi' _ hj'
  simp only [Equiv.apply_symm_apply] at h
  rw [← h]
  unfold Factor.reconstructed
  refine sum_congr rfl fun l _ => ?_
  beta_reduce
  rw [sum_eq_single ((permOf f.tr).symm j)]
  · simp only [Equiv.apply_symm_apply, if_true, mul_one, unitLower_eq]
    ring
  · intro r _ hr
    rw [if_neg (fun h => hr (by rw [← h]; simp)), mul_zero]
  · intro h
    exact absurd (mem_range.2 hj') h

/-- The substitutions and divisions solve the system of a factorization. -/
theorem solve_eq {n : Nat} {f : Factor R} {A : Nat → Nat → R} {tiny : R}
    (hp : ∀ i, i < n → permOf f.tr i < n) (hA : Spec.Factorizes n f.mat (permOf f.tr) A)
    (hd : ∀ l, l < n → f.mat l l ≠ 0) (ht : ∀ l, l < n → tiny < |f.mat l l|) (b : Nat → R)
    (i : Nat) (hi : i < n) : ∑ j ∈ range n, A i j * f.solve n tiny b j = b i := by
  have hu : ∀ r, r < n → unitLower f.mat r r ≠ 0 := fun r _ => by
    rw [unitLower_diag]; exact one_ne_zero
  have hup : ∀ r c, r < n → r < c → unitLower f.mat r c = 0 := fun r c _ h =>
    unitLower_upper f.mat r c h
  unfold Factor.solve
  generalize hy : fsub (unitLower f.mat) n (fun i => b (permOf f.tr i)) = y
  have h1 := fun r hr => fsub_full (unitLower f.mat) n (fun i => b (permOf f.tr i)) hu hup r hr
  rw [hy] at h1
  generalize hz : bsub (unitLower f.mat) n (divPivots n tiny f.mat y) = z
  have h2 := fun r hr => bsub_full (unitLower f.mat) n (divPivots n tiny f.mat y) hu hup r hr
  rw [hz] at h2
  have h3 : ∀ l, l < n → f.mat l l * ∑ c ∈ range n, unitLower f.mat c l * z c = y l := by
    intro l hl
    rw [h2 l hl, divPivots, if_pos hl, if_pos (ht l hl), mul_div_cancel₀ _ (hd l hl)]
  have hi' := symm_lt _ hp i hi
  rw [← sum_permute (permOf f.tr) hp]
  simp only [Equiv.symm_apply_apply]
  have h4 : ∀ j ∈ range n, A i (permOf f.tr j) * z j =
      ∑ l ∈ range n, unitLower f.mat ((permOf f.tr).symm i) l *
        (f.mat l l * (unitLower f.mat j l * z j)) := by
    intro j hj
    have := hA _ hi' j (mem_range.1 hj)
    rw [Equiv.apply_symm_apply] at this
    rw [← this, sum_mul]
    refine sum_congr rfl fun l _ => ?_
    rw [unitLower_eq, unitLower_eq]
    ring
  rw [sum_congr rfl h4, sum_comm]
  have h5 : ∀ l ∈ range n, ∑ j ∈ range n, unitLower f.mat ((permOf f.tr).symm i) l *
        (f.mat l l * (unitLower f.mat j l * z j)) =
      unitLower f.mat ((permOf f.tr).symm i) l * y l := by
    intro l hl
    rw [← h3 l (mem_range.1 hl), mul_sum, mul_sum]
  rw [sum_congr rfl h5, h1 _ hi', Equiv.apply_symm_apply]

/-- The pivots of the factorization are not smaller than the threshold. -/
theorem ldlt_pivots [IsStrictOrderedRing R] {n : Nat} {A : Nat → Nat → R} {s : Ldlt R}
    (h : ldlt n A = .ok s) : ∀ l, l < n → (eps : R) ≤ |s.mat l l| := by
  match n, h with
  | 0, h => simp [ldlt] at h
  | 1, h =>
    intro l hl
    obtain rfl : l = 0 := by omega
    simp only [ldlt, Outcome.ok.injEq] at h
    subst h
    simp only [true_and]
    have := (eps_pos (R := R)).le
    split_ifs with h1 h2
    · rw [abs_neg]; exact le_abs_self _
    · exact le_abs_self _
    · simpa using h1
  | n + 2, h =>
    intro l hl
    simp only [ldlt, Outcome.ok.injEq] at h
    subst h
    rw [ldltLoop_diag A l (n + 2) hl le_rfl]
    have : (ldltLoop (n + 2) A (l + 1)).mat l l = pivotReg (schurPivot l (pivotSwap (n + 2) l
        (pivotIndex (n + 2) l (ldltLoop (n + 2) A l).mat) (ldltLoop (n + 2) A l).mat)) := by
      simp [ldltLoop, ldltStep, eliminateCol]
    rw [this]
    unfold pivotReg
    split_ifs with h1 h2
    · exact h1.le
    · rw [abs_neg]; exact le_abs_self _
    · exact le_abs_self _

/-- The result of `compute` factorizes the matrix if no pivot was replaced. -/
theorem compute_factorizes [IsStrictOrderedRing R] {n : Nat} {A : Nat → Nat → R} {s : Ldlt R}
    (h : ldlt n A = .ok s) (hr : s.reg = false) :
    ∃ f, compute n A = .ok f ∧ f.mat = s.mat ∧ f.tr = s.tr ∧
      (∀ i, i < n → permOf f.tr i < n) ∧
      Spec.Factorizes n f.mat (permOf f.tr) (fun i j => A (max i j) (min i j)) := by
  obtain ⟨_, hp, _, _, hF, _⟩ := ldlt_spec h
  obtain ⟨f, hf, e1, e2, _⟩ := compute_sign h
  refine ⟨f, hf, e1, e2, by rw [e2]; exact hp, ?_⟩
  rw [e1, e2]
  intro i hi j hj
  simp only [← unitLower_eq]
  rcases Nat.le_total j i with h1 | h1
  · exact hF hr i j h1 hi
  · have := hF hr j i h1 hj
    rw [symm_comm] at this
    unfold symm at this
    rw [← this]
    exact sum_congr rfl fun l _ => by ring

end Verif.Dense
