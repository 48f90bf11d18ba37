import Mathlib.Algebra.Field.Rat
import Verif.Lemmas.Lmi

/-!
# Properties of the approximations of the exponential (C45)
-/

namespace Verif.MatrixExp

open Matrix Spec

section Pade

variable {R : Type} [Field R] {ι : Type} [Fintype ι] [DecidableEq ι]
  {solve : Matrix ι ι R → Matrix ι ι R → Matrix ι ι R}

/-- `r(A) r(-A) = 1`. -/
theorem C45_inverse (hs : Solves solve) (A : Matrix ι ι R) (h : IsUnit (denom A).det)
    (h' : IsUnit (denom (-A)).det) : pade solve A * pade solve (-A) = 1 := by
  have e1 : denom (-A) = numer A := by rw [denom_eq, neg_neg]
  refine cancel h ?_
  rw [← Matrix.mul_assoc, pade, hs _ _ h, ← e1, pade, hs _ _ h', ← denom_eq, Matrix.mul_one]

/-- The hypotheses hold for nonzero matrices. -/
example : IsUnit (denom (!![1, 2; 0, 1] : Matrix (Fin 2) (Fin 2) ℚ)).det ∧
    IsUnit (denom (-!![1, 2; 0, 1] : Matrix (Fin 2) (Fin 2) ℚ)).det := by
  constructor <;> rw [isUnit_iff_ne_zero] <;> decide +kernel

/-- `r(0) = 1`. -/
theorem C45_zero (hs : Solves solve) (h : (120 : R) ≠ 0) : pade solve (0 : Matrix ι ι R) = 1 := by
  have hd : IsUnit (denom (0 : Matrix ι ι R)).det := by
    rw [denom_zero, Matrix.det_smul, Matrix.det_one, mul_one]
    exact isUnit_iff_ne_zero.2 (pow_ne_zero _ h)
  refine cancel hd ?_
  rw [pade, hs _ _ hd, Matrix.mul_one, denom_eq, neg_zero]

example : (120 : ℚ) ≠ 0 := by decide

/-- `r(A)` commutes with everything that commutes with `A`. -/
theorem C45_commute (hs : Solves solve) (A B : Matrix ι ι R) (h : IsUnit (denom A).det)
    (hB : A * B = B * A) : pade solve A * B = B * pade solve A :=
  pade_intertwine hs h h hB

example : IsUnit (denom (!![1, 2; 0, 1] : Matrix (Fin 2) (Fin 2) ℚ)).det := by
  rw [isUnit_iff_ne_zero]
  decide +kernel

/-- `r` acts on eigenvectors by the rational function `p(x) / p(-x)`, the diagonal Padé approximation
of order three of the exponential. -/
theorem C45_function (hs : Solves solve) (A : Matrix ι ι R) (h : IsUnit (denom A).det) (v : ι → R)
    (hv : v ≠ 0) (μ : R) (hA : A *ᵥ v = μ • v) :
    p (-μ) ≠ 0 ∧ pade solve A *ᵥ v = (p μ / p (-μ)) • v := by
  have hn : ∀ B : Matrix ι ι R, ∀ x : R, B *ᵥ v = x • v → numer B *ᵥ v = p x • v := by
    intro B x hB
    rw [numer_eq]
    simp only [add_mulVec, smul_mulVec, ← mulVec_mulVec, hB, mulVec_smul, one_mulVec, p]
    module
  have hd : denom A *ᵥ v = p (-μ) • v := by
    rw [denom_eq]
    exact hn _ _ (by rw [neg_mulVec, hA, neg_smul])
  have hinj : ∀ x y : ι → R, denom A *ᵥ x = denom A *ᵥ y → x = y := by
    intro x y hxy
    have := congrArg ((denom A)⁻¹ *ᵥ ·) hxy
    simpa only [mulVec_mulVec, nonsing_inv_mul _ h, one_mulVec] using this
  have h0 : p (-μ) ≠ 0 := by
    intro hz
    rw [hz, zero_smul] at hd
    exact hv (hinj _ _ (by rw [hd, mulVec_zero]))
  refine ⟨h0, hinj _ _ ?_⟩
  rw [mulVec_mulVec, pade, hs _ _ h, hn _ _ hA, mulVec_smul, hd, smul_smul, div_mul_cancel₀ _ h0]

example : (!![1, 2; 0, 1] : Matrix (Fin 2) (Fin 2) ℚ) *ᵥ ![1, 0] = (1 : ℚ) • ![1, 0] ∧
    (![1, 0] : Fin 2 → ℚ) ≠ 0 := by
  decide +kernel

end Pade

section Update

variable {R : Type} [Field R] [LinearOrder R] [IsStrictOrderedRing R] {n : Nat}
  {solve : Lmi.Mat n R → Lmi.Mat n R → Lmi.Mat n R}

/-- The update of the scaling point is symmetric, whatever the workspace and the linear solver. -/
theorem C45_update_symmetric (solve : Lmi.Mat n R → Lmi.Mat n R → Lmi.Mat n R) (scale e : R)
    (w : Lmi.Ws n R) :
    (Lmi.geodesicUpdate solve scale e w).Wᵀ = (Lmi.geodesicUpdate solve scale e w).W := by
  rw [Lmi.geodesicUpdate_W, transpose_smul, transpose_add, transpose_transpose, add_comm]

/-- If the scaling point and the slack are symmetric then the product is symmetric already, so that
nothing is lost by symmetrising. -/
theorem C45_update_exact (hs : Solves solve) {W S : Lmi.Mat n R} (hW : Wᵀ = W) (hS : Sᵀ = S)
    (scale e : R) (hd : IsUnit (denom (scale • (W * S + e • 1))).det) :
    (Lmi.geodesicUpdate solve scale e ⟨W, W * S⟩).W =
      pade solve (scale • (W * S + e • 1)) * W :=
  Lmi.geodesicUpdate_exact hs hW hS scale e hd

example : let W : Lmi.Mat 2 ℚ := !![2, 1; 1, 1]
    let S : Lmi.Mat 2 ℚ := !![0, 1; 1, 3]
    Wᵀ = W ∧ Sᵀ = S ∧ IsUnit (denom ((1 / 2 : ℚ) • (W * S + (1 : ℚ) • 1))).det := by
  refine ⟨by decide +kernel, by decide +kernel, ?_⟩
  rw [isUnit_iff_ne_zero]
  decide +kernel

/-- A zero direction changes nothing. -/
theorem C45_update_zero (hs : Solves solve) {W : Lmi.Mat n R} (hW : Wᵀ = W) (t1 : Lmi.Mat n R)
    (scale e : R) (h0 : scale • (t1 + e • 1) = 0) :
    (Lmi.geodesicUpdate solve scale e ⟨W, t1⟩).W = W := by
  rw [Lmi.geodesicUpdate_W]
  simp only [h0, C45_zero hs (by norm_num : (120 : R) ≠ 0), Matrix.one_mul, hW, ← two_smul R,
    smul_smul]
  norm_num

example : (1 / 2 : ℚ) • ((!![-1, 0; 0, -1] : Lmi.Mat 2 ℚ) + (1 : ℚ) • 1) = 0 := by
  decide +kernel

end Update

/-- Only a zero direction does. -/
theorem C45_update_zero_only {n : Nat} {solve : Lmi.Mat n ℝ → Lmi.Mat n ℝ → Lmi.Mat n ℝ}
    (hs : Solves solve) {W S : Lmi.Mat n ℝ} (hW : W.PosDef) (hS : Sᵀ = S) (scale e : ℝ)
    (hd : IsUnit (denom (scale • (W * S + e • 1))).det)
    (h : (Lmi.geodesicUpdate solve scale e ⟨W, W * S⟩).W = W) :
    scale • (W * S + e • 1) = 0 := by
  obtain ⟨V, d, hV, hVW, hd'⟩ := Lmi.exists_basis hW hS
  have hc := Lmi.step_conj hd' scale e
  have hWt : Wᵀ = W := by rw [hVW, transpose_mul, transpose_transpose]
  rw [Lmi.geodesicUpdate_exact hs hWt hS scale e hd] at h
  have hN : numer (scale • (W * S + e • 1)) * W = denom (scale • (W * S + e • 1)) * W := by
    have h' := congrArg (denom (scale • (W * S + e • 1)) * ·) h
    simp only [← Matrix.mul_assoc] at h'
    rwa [pade, hs _ _ hd] at h'
  obtain ⟨B, h1, h2⟩ := isUnit_iff_exists.1 hV
  have hN' : numer (scale • (W * S + e • 1)) = denom (scale • (W * S + e • 1)) := by
    have hWu : W * (Bᵀ * B) = 1 := by
      rw [hVW, Matrix.mul_assoc, ← Matrix.mul_assoc Vᵀ, ← transpose_mul, h2, transpose_one,
        Matrix.one_mul, h1]
    calc numer (scale • (W * S + e • 1)) = numer (scale • (W * S + e • 1)) * (W * (Bᵀ * B)) := by
          rw [hWu, Matrix.mul_one]
      _ = denom (scale • (W * S + e • 1)) * (W * (Bᵀ * B)) := by
          rw [← Matrix.mul_assoc, hN, Matrix.mul_assoc]
      _ = _ := by rw [hWu, Matrix.mul_one]
  have hD : numer (diagonal fun i => scale * (d i + e)) = denom (diagonal fun i => scale * (d i + e)) := by
    have e1 := numer_intertwine hc
    have e2 := denom_intertwine hc
    have : V * numer (diagonal fun i => scale * (d i + e)) =
        V * denom (diagonal fun i => scale * (d i + e)) := by rw [← e1, ← e2, hN']
    have := congrArg (B * ·) this
    simpa only [← Matrix.mul_assoc, h2, Matrix.one_mul] using this
  rw [numer_diagonal, denom_diagonal] at hD
  have hz : ∀ i, scale * (d i + e) = 0 := by
    intro i
    have := congrFun (diagonal_injective hD) i
    simp only [p] at this
    set x := scale * (d i + e)
    have hx : x * (x ^ 2 + 60) = 0 := by linarith
    rcases mul_eq_zero.1 hx with hx | hx
    · exact hx
    · nlinarith [sq_nonneg x]
  have : scale • (W * S + e • 1) * V = 0 := by
    rw [hc]
    simp only [hz]
    rw [diagonal_zero, Matrix.mul_zero]
  generalize scale • (W * S + e • 1) = A at this
  rw [← Matrix.mul_one A, ← h1, ← Matrix.mul_assoc, this, Matrix.zero_mul]

example : (1 : Lmi.Mat 2 ℝ).PosDef := Matrix.PosDef.one

section Taylor

open Hyper

variable {R : Type} [Field R] [CharZero R] {ι : Type} [Fintype ι] [DecidableEq ι] {d : Nat}

/-- The approximation used for Hermitian matrices is `(1 + x/4 + x²/32)⁴`, computed by squaring
twice. -/
theorem C45_taylor (x : Hyp d ι ι R) :
    let y := Hyper.add (Hyper.add (identity d) (scalarMultiply x (1 / 4)))
      (scalarMultiply (multiply x x) (1 / 32))
    exponentialMap x = multiply (multiply y y) (multiply y y) :=
  taylor_eq x

/-- At zero it is the identity. -/
theorem C45_taylor_zero (hd : Hyper.Spec.Dim d) :
    exponentialMap (Hyper.zero d : Hyp d ι ι R) = identity d := by
  have : Hyper.add (Hyper.add (identity d) (scalarMultiply (Hyper.zero d : Hyp d ι ι R) (1 / 4)))
      (scalarMultiply (multiply (Hyper.zero d : Hyp d ι ι R) (Hyper.zero d)) (1 / 32)) = identity d := by
    rw [multiply_zero]
    funext c
    simp [Hyper.add, Hyper.scalar_apply, Hyper.zero]
  rw [C45_taylor]
  simp only [this, one_multiply hd]

example : Hyper.Spec.Dim 8 := .inr (.inr (.inr rfl))

/-- For associative algebras it commutes with its argument. -/
theorem C45_taylor_commute (hd : d = 1 ∨ d = 2 ∨ d = 4) (x : Hyp d ι ι R) :
    multiply x (exponentialMap x) = multiply (exponentialMap x) x := by
  have hD := dim_of_assoc hd
  rw [C45_taylor]
  set y := Hyper.add (Hyper.add (identity d) (scalarMultiply x (1 / 4)))
    (scalarMultiply (multiply x x) (1 / 32)) with hdef
  have hy : multiply x y = multiply y x := by
    simp only [hdef, Hyper.multiply_add, Hyper.add_multiply, multiply_scalar, scalar_multiply,
      one_multiply hD, Hyper.multiply_one hD, multiply_assoc hd]
  have hyy : multiply x (multiply y y) = multiply (multiply y y) x := by
    rw [← multiply_assoc hd, hy, multiply_assoc hd, hy, multiply_assoc hd]
  rw [← multiply_assoc hd, hyy, multiply_assoc hd, hyy]
  simp only [multiply_assoc hd]

/-- The update that is used for octonions is, in an associative algebra, the congruence of the scaling
point with `3/2 + w s/2`. -/
theorem C45_scaled (hd : d = 1 ∨ d = 2 ∨ d = 4) (w s : Hyp d ι ι R) (hw : Hyper.Spec.Hermitian w)
    (hs : Hyper.Spec.Hermitian s) :
    let f := Hyper.add (scalarMultiply (identity d) (3 / 2)) (scalarMultiply (multiply w s) (1 / 2))
    geodesicScaled w s = multiply (multiply f w) (conjTranspose f) := by
  have hD := dim_of_assoc hd
  intro f
  rw [hermitian_iff] at hw hs
  have hf : conjTranspose f = Hyper.add (scalarMultiply (identity d) (3 / 2))
      (scalarMultiply (multiply s w) (1 / 2)) := by
    simp only [f, conj_add, conj_scalar, conj_identity, conj_multiply hD, hw, hs]
  unfold geodesicScaled makeHermitian
  simp only [conj_add, conj_scalar, hw, conj_quadRep hD hw hs,
    conj_quadRep hD hw (conj_quadRep hD hs hw)]
  rw [hf]
  simp only [f, quadRep_assoc hd, Hyper.multiply_add, Hyper.add_multiply, multiply_scalar,
    scalar_multiply, one_multiply hD, Hyper.multiply_one hD, multiply_assoc hd]
  funext c
  ext i j
  simp only [Hyper.add, scalarMultiply, Matrix.add_apply]
  ring

example : Hyper.Spec.Hermitian (identity 4 : Hyp 4 (Fin 2) (Fin 2) ℚ) := by
  rw [hermitian_iff, conj_identity]

end Taylor

end Verif.MatrixExp
