import Verif.Lemmas.FactorNorm
import Verif.Spec.RankUpdate
import Mathlib.Algebra.Order.Ring.Rat
import Mathlib.Tactic.NormNum

/-!
# C108: the norm that `RLDLT` keeps for the condition estimate, and its status members

`rcond` is documented as the estimate for "the matrix of which `*this` is the RLDLT decomposition"
(RLDLT.h 216-218). It is computed with the stored norm.
-/

namespace Verif.Dense

open Finset

variable {R : Type} [Field R] [LinearOrder R]

namespace Spec

/-- `v` is the largest sum of absolute values of a column of the `n × n` matrix `A`. -/
def IsL1Norm (n : Nat) (A : Nat → Nat → R) (v : R) : Prop :=
  (∀ c, c < n → ∑ i ∈ range n, |A i c| ≤ v) ∧ ∃ c, c < n ∧ ∑ i ∈ range n, |A i c| = v

/-- The symmetric matrix with the lower triangle of `a`. -/
def symmetric (a : Nat → Nat → R) (i j : Nat) : R := if j ≤ i then a i j else a j i

end Spec

variable [IsStrictOrderedRing R]

/-- **C108.** After `compute` of a nonempty matrix every member is set, and the norm is that of the
symmetric matrix given by the lower triangle, whatever the object held before. From order 2 on
`regularization_used` tells whether a pivot was replaced. -/
theorem C108_compute_partial (n : Nat) (hn : 0 < n) (a : Nat → Nat → R) (o : Object R) :
    ∃ p v, Object.compute n a o = .ok p ∧ p.rcondNorm = .ok v ∧
      Spec.IsL1Norm n (Spec.symmetric a) v ∧ p.getInfo = .ok () ∧
      (∃ b, p.regularizationUsed = .ok b) ∧
      ∀ s, ldlt n a = .ok s → 2 ≤ n → p.regularizationUsed = .ok s.reg := by
  have hs : ∀ c, c < n → absColSum n a c = ∑ i ∈ range n, |Spec.symmetric a i c| := by
    intro c hc
    rw [absColSum_eq a hc]
    rfl
  obtain ⟨h1, h2, h3⟩ := foldl_max (absColSum n a) (List.range n) 0
  obtain ⟨s, hl⟩ : ∃ s, ldlt n a = .ok s := by
    match n, hn with
    | 1, _ => exact ⟨_, rfl⟩
    | k + 2, _ => exact ⟨_, rfl⟩
  have hc : ∃ f, Dense.compute n a = .ok f := by
    unfold Dense.compute
    rw [hl]
    exact ⟨_, rfl⟩
  obtain ⟨f, hf⟩ := hc
  refine ⟨⟨some f, some (l1Norm n a), some (!s.ret), some ()⟩, l1Norm n a, ?_, rfl, ⟨?_, ?_⟩, rfl,
    ⟨_, rfl⟩, ?_⟩
  · unfold Object.compute
    rw [hl, hf]
    rfl
  · intro c hc
    rw [← hs c hc]
    exact h2 c (List.mem_range.2 hc)
  · rcases h3 with h3 | ⟨c, hc, h3⟩
    · refine ⟨0, hn, le_antisymm ?_ ?_⟩
      · rw [← hs 0 hn]
        exact h2 0 (List.mem_range.2 hn)
      · change List.foldl _ _ _ ≤ _
        rw [h3]
        exact sum_nonneg fun i _ => abs_nonneg _
    · refine ⟨c, List.mem_range.1 hc, ?_⟩
      rw [← hs c (List.mem_range.1 hc)]
      exact h3.symm
  · intro s' hs' h2n
    obtain ⟨k, rfl⟩ : ∃ k, n = k + 2 := ⟨n - 2, by omega⟩
    cases hl
    cases hs'
    simp [Object.regularizationUsed, readMember, ldltLoop_ret]

example : (0 : Nat) < 3 := by decide

/-- **C108 (violated).** A rank one update leaves the norm of the old matrix: after `compute` of the
identity of order 2 and the update by `(3, 0)` the object is a decomposition of `diag (10, 1)`, and
the norm that `rcond` uses is 1 instead of 10. -/
theorem C108_stale_violated :
    ∃ (p q : Object ℚ) (g : Factor ℚ),
      Object.compute 2 (fun i j => if i = j then 1 else 0) Object.new = .ok p ∧
      Object.rankUpdate 2 (fun i => if i = 0 then 3 else 0) 1 p = some q ∧
      q.factor = some g ∧
      Spec.Factorizes 2 g.mat (permOf g.tr)
        (fun i j => if i = j then (if i = 0 then 10 else 1) else 0) ∧
      q.rcondNorm = .ok 1 ∧
      ¬ Spec.IsL1Norm 2 (fun i j => if i = j then (if i = 0 then (10 : ℚ) else 1) else 0) 1 := by
  let A : Nat → Nat → ℚ := fun i j => if i = j then 1 else 0
  let w : Nat → ℚ := fun i => if i = 0 then 3 else 0
  let s := ldltLoop 2 A 2
  let f : Factor ℚ := ⟨s.mat, s.tr, signLoop 2 A 2⟩
  have hu : (rankUpdate 2 (some f) w 1).isSome = true := by decide +kernel
  obtain ⟨g, hg⟩ := Option.isSome_iff_exists.1 hu
  have hn : l1Norm 2 A = 1 := by decide +kernel
  refine ⟨⟨some f, some (l1Norm 2 A), some (!s.ret), some ()⟩,
    ⟨some g, some (l1Norm 2 A), some (!s.ret), some ()⟩, g, rfl, ?_, rfl, ?_, ?_, ?_⟩
  · change (rankUpdate 2 (some f) w 1).map _ = _
    rw [hg]
    rfl
  · have he : g = (rankUpdate 2 (some f) w 1).getD ⟨fun _ _ => 0, [], .zeroSign⟩ := by
      rw [hg]; rfl
    rw [he]
    unfold Spec.Factorizes
    decide +kernel
  · change readMember (some (l1Norm 2 A)) = _
    rw [hn]
    rfl
  · rintro ⟨h, -⟩
    have := h 0 (by decide)
    revert this
    decide +kernel

omit [IsStrictOrderedRing R] in
/-- **C108 (violated).** An object that `rankUpdate` has initialised is a decomposition, but its norm,
`info` and `regularization_used` are uninitialised: reading them is undefined. -/
theorem C108_uninitialised_violated (n : Nat) (w : Nat → R) (sigma : R) (q : Object R)
    (h : Object.rankUpdate n w sigma Object.new = some q) :
    q.factor.isSome = true ∧ q.rcondNorm = .ub ∧ q.getInfo = .ub ∧ q.regularizationUsed = .ub := by
  unfold Object.rankUpdate at h
  obtain ⟨f, -, rfl⟩ := Option.map_eq_some_iff.1 h
  exact ⟨rfl, rfl, rfl, rfl⟩

example : (Object.rankUpdate 2 (fun i => (i : ℚ) + 1) 1 Object.new).isSome = true := by
  decide +kernel

end Verif.Dense
