import Mathlib.Tactic.NormNum
import Verif.Lemmas.RankUpdate

/-!
# C103: the rank one update of a dense factorization

`RLDLT::rankUpdate` should turn a factorization of `A` into one of `A + sigma w wᵀ`.
-/

namespace Verif.Dense

open Finset

variable {R : Type} [Field R] [LinearOrder R] [IsStrictOrderedRing R]

/-- **C103 (partial).** Let the object hold a factorization of `A` with non-zero pivots. If the
entries stay finite, the result is a factorization of `A + sigma w wᵀ` with the same permutation.
If the pivots are positive, and `sigma` is not negative or the new matrix is positive definite, the
entries stay finite and the new pivots are positive. An object without a decomposition becomes a
factorization of `sigma w wᵀ` if the first entry of `w` is not zero. Zero pivots, downdates to
singular matrices and the sign are excluded: see `C103_zero_pivot_violated`,
`C103_downdate_violated` and `C103_sign_violated`. -/
theorem C103_rank_update_partial (n : Nat) (w : Nat → R) (sigma : R) :
    (∀ (f : Factor R) (A : Nat → Nat → R), (∀ i, i < n → permOf f.tr i < n) →
      Spec.Factorizes n f.mat (permOf f.tr) A → (∀ l, l < n → f.mat l l ≠ 0) →
      (∀ g, rankUpdate n (some f) w sigma = some g → g.tr = f.tr ∧
        Spec.Factorizes n g.mat (permOf g.tr) (fun i j => A i j + sigma * w i * w j)) ∧
      ((∀ l, l < n → 0 < f.mat l l) →
        (0 ≤ sigma ∨ Sup.Spec.PosDef n (fun i j => A i j + sigma * w i * w j)) →
        ∃ g, rankUpdate n (some f) w sigma = some g ∧ ∀ l, l < n → 0 < g.mat l l)) ∧
    (0 < n → w 0 ≠ 0 → ∃ g, rankUpdate n none w sigma = some g ∧
      Spec.Factorizes n g.mat id (fun i j => sigma * w i * w j) ∧
      (∀ i, i < n → permOf g.tr i = i)) := by
  refine ⟨?_, ?_⟩
  · intro f A hperm hA hd
    have H : RankInv n 0 sigma 1 f.mat (fun i => w (permOf f.tr i))
        (fun i j => A (permOf f.tr i) (permOf f.tr j) +
          sigma * w (permOf f.tr i) * w (permOf f.tr j)) := by
      intro i j hi hj
      rw [hA i hi j hj]
      simp [rest]
    refine ⟨?_, ?_⟩
    · intro g hg
      simp only [rankUpdate, Option.getD_some, Option.map_eq_some_iff] at hg
      obtain ⟨m, hm, rfl⟩ := hg
      refine ⟨rfl, ?_⟩
      rw [List.range_eq_range'] at hm
      exact fun i hi j hj =>
        rankLoop_ok n 0 f.mat _ 1 (by omega) (fun l _ hl => hd l hl) H hm i j hi hj
    · intro hpos hT
      obtain ⟨m, hm, hm'⟩ := rankLoop_pos (T := fun i j => A (permOf f.tr i) (permOf f.tr j) +
          sigma * w (permOf f.tr i) * w (permOf f.tr j)) (sigma := sigma) (size := n) (by
        rcases hT with h | h
        · exact .inl h
        · right
          intro x ⟨i, hi, hx⟩
          have := h (fun i => x ((permOf f.tr).symm i))
            ⟨permOf f.tr i, hperm i hi, by simpa using hx⟩
          rw [← sum_permute (permOf f.tr) hperm] at this
          rw [sum_congr rfl fun i _ => (sum_permute (permOf f.tr) hperm _).symm] at this
          simpa using this) n 0 f.mat _ 1 (by omega) one_pos hpos H
      refine ⟨{ f with mat := m }, ?_, hm'⟩
      simp only [rankUpdate, Option.getD_some, Option.map_eq_some_iff]
      exact ⟨m, by rw [List.range_eq_range']; exact hm, rfl⟩
  · intro hn hw
    refine ⟨⟨stepMat n 0 sigma 1 (fun _ _ => 0) w, List.range n,
      if 0 ≤ sigma then .positiveSemiDef else .negativeSemiDef⟩, ?_, ?_, ?_⟩
    · simp only [rankUpdate, Option.getD_none, permOf_range, Equiv.Perm.coe_one, id_eq]
      rw [rankLoop_zero hn]
      rfl
    · intro i hi j hj
      exact stepMat_zero hn sigma w hw i j hi hj
    · intro i _
      simp [permOf_range]

/-- Reads a `2 × 2` matrix off an object. -/
def entries (f : Option (Factor ℚ)) : Option (List ℚ × List Nat × Bool) :=
  f.map fun g => ([g.mat 0 0, g.mat 1 0, g.mat 1 1], g.tr, g.isPositive)

/-- A factorization of `[[2, 4], [4, 8 + 3]]` with exchanged indices. -/
def exFactor : Factor ℚ where
  mat := fun i j => if i = 0 ∧ j = 0 then 11 else if i = 1 ∧ j = 0 then 4 / 11
    else if i = 1 ∧ j = 1 then 6 / 11 else 0
  tr := [1, 1]
  sign := .positiveSemiDef

/-- The hypotheses of the theorem at this factorization, for the update by `(1, 2)` and for the
downdate that removes it again. -/
example : (∀ i, i < 2 → permOf exFactor.tr i < 2) ∧
    Spec.Factorizes 2 exFactor.mat (permOf exFactor.tr)
      (fun i j => if i = 0 ∧ j = 0 then 2 else if i = 1 ∧ j = 1 then 11 else 4) ∧
    (∀ l, l < 2 → 0 < exFactor.mat l l) ∧
    entries (rankUpdate 2 (some exFactor) (fun i => if i = 0 then 1 else 2) 1) =
      some ([15, 2 / 5, 3 / 5], [1, 1], true) ∧
    entries (rankUpdate 2 (rankUpdate 2 (some exFactor) (fun i => if i = 0 then 1 else 2) 1)
      (fun i => if i = 0 then 1 else 2) (-1)) = some ([11, 4 / 11, 6 / 11], [1, 1], true) := by
  refine ⟨by decide +kernel, ?_, by decide +kernel, by decide +kernel, by decide +kernel⟩
  unfold Spec.Factorizes
  decide +kernel

/-- **C103 is violated** by zero pivots. Starting without a decomposition, the update by `(0, 1)`
gives the zero matrix: the zero over zero in the first pass ends the loop. -/
theorem C103_zero_pivot_violated :
    ∃ (w : Nat → ℚ) (g : Factor ℚ), rankUpdate 2 none w 1 = some g ∧
      ¬ Spec.Factorizes 2 g.mat (permOf g.tr) (fun i j => 1 * w i * w j) ∧
      ∀ i j, g.mat i j = 0 := by
  have h := rankLoop_zero (n := 2) (by omega) (1 : ℚ) (fun i => if i = 1 then 1 else 0)
  have hz : ∀ i j, stepMat 2 0 (1 : ℚ) 1 (fun _ _ => 0) (fun i => if i = 1 then 1 else 0) i j = 0 := by
    intro i j
    simp [stepMat, rankMat, rankVec]
  refine ⟨fun i => if i = 1 then 1 else 0,
    ⟨stepMat 2 0 (1 : ℚ) 1 (fun _ _ => 0) (fun i => if i = 1 then 1 else 0), List.range 2,
      .positiveSemiDef⟩, ?_, ?_, hz⟩
  · simp only [rankUpdate, Option.getD_none, permOf_range, Equiv.Perm.coe_one, id_eq]
    rw [h]
    rfl
  · intro hF
    have := hF 1 (by omega) 1 (by omega)
    simp only [hz, permOf_range] at this
    simp at this

/-- **C103 is violated** by downdates to singular matrices. Add `(1, 0)`, add `(0, 1)`, remove
`(1, 0)`: the matrix `diag(0, 1)` has a factorization, but the result is not finite. -/
theorem C103_downdate_violated :
    ∃ (u v : Nat → ℚ) (g : Factor ℚ),
      rankUpdate 2 (rankUpdate 2 none u 1) v 1 = some g ∧
      Spec.Factorizes 2 g.mat (permOf g.tr) (fun i j => 1 * u i * u j + 1 * v i * v j) ∧
      (∀ l, l < 2 → 0 < g.mat l l) ∧
      (∃ m, Spec.Factorizes 2 m (permOf g.tr)
        (fun i j => (1 * u i * u j + 1 * v i * v j) + (-1) * u i * u j)) ∧
      rankUpdate 2 (some g) u (-1) = none := by
  refine ⟨fun i => if i = 0 then 1 else 0, fun i => if i = 1 then 1 else 0,
    (rankUpdate 2 (rankUpdate 2 none (fun i => if i = 0 then 1 else 0) 1)
      (fun i => if i = 1 then 1 else 0) 1).getD ⟨fun _ _ => 0, [], .zeroSign⟩, ?_, ?_, ?_,
    ⟨fun i j => if i = 1 ∧ j = 1 then 1 else 0, ?_⟩, ?_⟩
  · have : (rankUpdate 2 (rankUpdate 2 none (fun i => if i = 0 then (1 : ℚ) else 0) 1)
      (fun i => if i = 1 then 1 else 0) 1).isSome = true := by decide +kernel
    obtain ⟨g, hg⟩ := Option.isSome_iff_exists.1 this
    rw [hg]; rfl
  · unfold Spec.Factorizes
    decide +kernel
  · decide +kernel
  · unfold Spec.Factorizes
    decide +kernel
  · rw [← Option.not_isSome_iff_eq_none]
    decide +kernel

/-- **The sign is not updated.** After adding `(1)` and removing `(2)` the matrix is `-3`, and
`isPositive` still says that it is positive semidefinite. -/
theorem C103_sign_violated :
    ∃ (u v : Nat → ℚ) (g : Factor ℚ), rankUpdate 1 (rankUpdate 1 none u 1) v (-1) = some g ∧
      Spec.Factorizes 1 g.mat (permOf g.tr) (fun i j => 1 * u i * u j + (-1) * v i * v j) ∧
      g.mat 0 0 = -3 ∧ g.isPositive = true := by
  refine ⟨fun _ => 1, fun _ => 2, (rankUpdate 1 (rankUpdate 1 none (fun _ => 1) 1)
    (fun _ => 2) (-1)).getD ⟨fun _ _ => 0, [], .zeroSign⟩, ?_, ?_, ?_, ?_⟩
  · have : (rankUpdate 1 (rankUpdate 1 none (fun _ => (1 : ℚ)) 1)
      (fun _ => 2) (-1)).isSome = true := by decide +kernel
    obtain ⟨g, hg⟩ := Option.isSome_iff_exists.1 this
    rw [hg]; rfl
  · unfold Spec.Factorizes
    decide +kernel
  · decide +kernel
  · decide +kernel

end Verif.Dense
