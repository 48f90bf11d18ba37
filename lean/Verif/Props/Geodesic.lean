import Verif.Lemmas.Geodesic
import Verif.Spec.Geodesic

/-!
# C76: the geodesic update

`GeodesicUpdate(w, s)` sums the first twelve terms of the series of `w^{1/2} exp(w^{1/2} s w^{1/2}) w^{1/2}`.  The
polynomial has odd degree, so that the result may leave the cone.
-/

namespace Verif.MatrixExp

open Hyper Matrix

/-- Real, complex and quaternion matrices: the result is the sum of the first twelve terms of the series. -/
theorem C76_series {R : Type} [Field R] [CharZero R] {d n : Nat} (hd : d = 1 ∨ d = 2 ∨ d = 4)
    (w s : Hyp d (Fin n) (Fin n) R) (hw : Hyper.Spec.Hermitian w) (hs : Hyper.Spec.Hermitian s) (c : Fin d)
    (i j : Fin n) : geodesic w s c i j = ∑ k ∈ Finset.range 12, Spec.term w s k c i j / (k.factorial : R) := by
  have hD := dim_of_assoc hd
  have ht : ∀ k, lmat (Spec.term w s k) = (lmat w * lmat s) ^ k * lmat w := by
    intro k
    induction k with
    | zero => simp [Spec.term]
    | succ k ih => rw [Spec.term, lmat_multiply hd, lmat_multiply hd, ih, pow_succ']; simp only [Matrix.mul_assoc]
  have hl : ∀ m, ∃ x : Hyp d (Fin n) (Fin n) R, (∀ c i j, x c i j = ∑ k ∈ Finset.range m, Spec.term w s k c i j / (k.factorial : R)) ∧
      lmat x = ∑ k ∈ Finset.range m, (1 / (factorial k : R)) • ((lmat w * lmat s) ^ k * lmat w) := by
    intro m
    induction m with
    | zero => exact ⟨fun _ => 0, fun _ _ _ => rfl, by ext; simp [lmat]⟩
    | succ m ih =>
      obtain ⟨x, h1, h2⟩ := ih
      refine ⟨add x (scalarMultiply (Spec.term w s m) (1 / (factorial m : R))), fun c i j => ?_, ?_⟩
      · rw [Finset.sum_range_succ, ← h1, factorial_eq]
        show x c i j + Spec.term w s m c i j * (1 / (m.factorial : R)) = _
        rw [mul_one_div]
      · rw [Finset.sum_range_succ, lmat_add, lmat_scalar, h2, ht]
  obtain ⟨x, h1, h2⟩ := hl 12
  rw [← h1, lmat_injective hD ((lmat_geodesic hd hw hs).trans h2.symm)]

/-- The hypotheses: `w = 1` and `s = -6` of size one over `ℚ`, where the sum is not zero. -/
example : geodesic (identity 1 : Hyp 1 (Fin 1) (Fin 1) ℚ) (scalarMultiply (identity 1) (-6)) 0 0 0 =
    ∑ k ∈ Finset.range 12, Spec.term (identity 1 : Hyp 1 (Fin 1) (Fin 1) ℚ) (scalarMultiply (identity 1) (-6)) k 0 0 0 /
      (k.factorial : ℚ) :=
  C76_series (by simp) _ _ (by rw [hermitian_iff, conj_identity]) (by rw [hermitian_iff, conj_scalar, conj_identity]) 0 0 0

/-- The result is positive definite if `w + w s w` is, that is, if all eigenvalues of `w s` exceed `-1`.  Partial:
without this condition it need not be, and octonions are not covered. -/
theorem C76_cone_partial {d n : Nat} (hd : d = 1 ∨ d = 2 ∨ d = 4) (w s : HermLmi.HMat d n ℝ)
    (hw : HermLmi.Spec.PosDef w) (hs : Hyper.Spec.Hermitian s)
    (h : HermLmi.Spec.PosDef (add w (multiply w (multiply s w)))) : HermLmi.Spec.PosDef (geodesic w s) := by
  have hD := dim_of_assoc hd
  have hwh := hw.1
  rw [HermLmi.posDef_lmat hD] at hw h ⊢
  rw [lmat_add, lmat_multiply hd, lmat_multiply hd, ← Matrix.mul_assoc] at h
  rw [lmat_geodesic hd hwh hs]
  rw [HermLmi.hermitian_lmat hD] at hs
  have e : ∀ f : Nat → Matrix (Fin d × Fin n) (Fin d × Fin n) ℝ, ∑ k ∈ Finset.range 12, f k =
      (f 0 + f 1) + ((f 2 + f 3) + (f 4 + f 5) + (f 6 + f 7) + (f 8 + f 9) + (f 10 + f 11)) := by
    intro f
    simp only [Finset.sum_range_succ, Finset.sum_range_zero, zero_add]
    abel
  rw [e]
  refine Matrix.PosDef.add_posSemidef ?_ ?_
  · simpa [factorial] using h
  · exact ((((pair_posSemidef hw hs h 1).add (pair_posSemidef hw hs h 2)).add (pair_posSemidef hw hs h 3)).add
      (pair_posSemidef hw hs h 4)).add (pair_posSemidef hw hs h 5)

/-- The hypotheses: the identity and a matrix with eigenvalue `-1/2`. -/
example : HermLmi.Spec.PosDef (geodesic (identity 4 : HermLmi.HMat 4 2 ℝ) (scalarMultiply (identity 4) (-1 / 2))) := by
  have hD : Hyper.Spec.Dim 4 := by simp [Hyper.Spec.Dim]
  have h1 : HermLmi.Spec.PosDef (identity 4 : HermLmi.HMat 4 2 ℝ) := by
    rw [HermLmi.posDef_lmat hD, lmat_identity hD]
    exact Matrix.PosDef.one
  refine C76_cone_partial (by simp) _ _ h1 ?_ ?_
  · rw [hermitian_iff, conj_scalar, conj_identity]
  · rw [HermLmi.posDef_lmat hD, lmat_add, lmat_multiply (by simp), lmat_multiply (by simp), lmat_scalar, lmat_identity hD]
    have : (1 : Matrix (Fin 4 × Fin 2) (Fin 4 × Fin 2) ℝ) + 1 * ((-1 / 2 : ℝ) • 1 * 1) = (1 / 2 : ℝ) • 1 := by
      rw [Matrix.one_mul, Matrix.mul_one, ← one_smul ℝ (1 : Matrix (Fin 4 × Fin 2) (Fin 4 × Fin 2) ℝ), smul_smul, ← add_smul]
      norm_num
    rw [this]
    exact Matrix.PosDef.one.smul (by norm_num)

/-- A positive definite matrix and a Hermitian direction may yield a matrix that is not positive definite: `w = 1`
and `s = -6`. -/
theorem C76_cone_violated : ∃ w s : HermLmi.HMat 1 1 ℚ, HermLmi.Spec.PosDef w ∧ Hyper.Spec.Hermitian s ∧
    ¬ HermLmi.Spec.PosDef (geodesic w s) := by
  have hD : Hyper.Spec.Dim 1 := by simp [Hyper.Spec.Dim]
  refine ⟨identity 1, scalarMultiply (identity 1) (-6), ⟨by rw [hermitian_iff, conj_identity], fun v hv => ?_⟩,
    by rw [hermitian_iff, conj_scalar, conj_identity], fun h => ?_⟩
  · have h0 : v 0 0 () ≠ 0 := by
      intro h
      refine hv ?_
      funext c r u
      rw [Subsingleton.elim c 0, Subsingleton.elim r 0]
      exact h
    rw [HermLmi.Spec.form, one_multiply hD]
    simpa using mul_self_pos.2 h0
  · have := h.2 (fun _ _ _ => 1) (by
      intro h
      have := congrFun (congrFun (congrFun h 0) 0) ()
      simp at this)
    revert this
    decide +kernel

end Verif.MatrixExp
