import Mathlib.Tactic.NoncommRing
import Mathlib.Tactic.Linarith
import Mathlib.Tactic.Module
import Verif.Spec.MatrixExp
import Verif.Lemmas.Hyper

/-!
# Lemmas on the approximations of the exponential
-/

namespace Verif.MatrixExp

open Matrix Spec

section Pade

variable {R : Type} [Field R] {ι : Type} [Fintype ι] [DecidableEq ι]

theorem numer_eq (A : Matrix ι ι R) :
    numer A = A * (A * A) + (12 : R) • (A * A) + (60 : R) • A + (120 : R) • 1 := by
  simp only [numer, padeOdd, padeEven, Matrix.mul_add, Matrix.mul_smul, one_smul, Matrix.mul_one]
  abel

theorem denom_eq (A : Matrix ι ι R) : denom A = numer (-A) := by
  simp only [numer_eq, denom, padeOdd, padeEven, Matrix.mul_add, Matrix.mul_smul, one_smul,
    Matrix.mul_one, Matrix.neg_mul, Matrix.mul_neg, neg_neg, smul_neg]
  abel

theorem numer_intertwine {A B V : Matrix ι ι R} (h : A * V = V * B) :
    numer A * V = V * numer B := by
  simp only [numer_eq, Matrix.add_mul, Matrix.mul_add, Matrix.smul_mul, Matrix.mul_smul, Matrix.one_mul,
    Matrix.mul_one, Matrix.mul_assoc, h]
  simp only [← Matrix.mul_assoc, h]

theorem denom_intertwine {A B V : Matrix ι ι R} (h : A * V = V * B) :
    denom A * V = V * denom B := by
  rw [denom_eq, denom_eq]
  exact numer_intertwine (by rw [Matrix.neg_mul, Matrix.mul_neg, h])

theorem cancel {D X Y : Matrix ι ι R} (hD : IsUnit D.det) (h : D * X = D * Y) : X = Y := by
  have := congrArg (D⁻¹ * ·) h
  simpa only [← Matrix.mul_assoc, Matrix.nonsing_inv_mul D hD, Matrix.one_mul] using this

theorem pade_intertwine {solve : Matrix ι ι R → Matrix ι ι R → Matrix ι ι R} (hs : Solves solve)
    {A B V : Matrix ι ι R} (hA : IsUnit (denom A).det) (hB : IsUnit (denom B).det)
    (h : A * V = V * B) : pade solve A * V = V * pade solve B := by
  refine cancel hA ?_
  rw [← Matrix.mul_assoc, pade, hs _ _ hA, numer_intertwine h, ← Matrix.mul_assoc, denom_intertwine h,
    Matrix.mul_assoc, pade, hs _ _ hB]

theorem numer_transpose (A : Matrix ι ι R) : numer Aᵀ = (numer A)ᵀ := by
  simp only [numer_eq, Matrix.transpose_add, Matrix.transpose_smul, Matrix.transpose_mul,
    Matrix.transpose_one, Matrix.mul_assoc]

theorem denom_transpose (A : Matrix ι ι R) : denom Aᵀ = (denom A)ᵀ := by
  rw [denom_eq, denom_eq, ← Matrix.transpose_neg, numer_transpose]

theorem pade_transpose {solve : Matrix ι ι R → Matrix ι ι R → Matrix ι ι R} (hs : Solves solve)
    {A : Matrix ι ι R} (hA : IsUnit (denom A).det) : pade solve Aᵀ = (pade solve A)ᵀ := by
  have hAt : IsUnit (denom Aᵀ).det := by rwa [denom_transpose, Matrix.det_transpose]
  have hc : pade solve A * denom A = denom A * pade solve A := by
    have hd : A * denom A = denom A * A := (denom_intertwine (rfl : A * A = A * A)).symm
    exact pade_intertwine hs hA hA hd
  refine cancel hAt ?_
  rw [pade, hs _ _ hAt, numer_transpose, denom_transpose, ← Matrix.transpose_mul, hc, pade,
    hs _ _ hA]

theorem denom_zero : denom (0 : Matrix ι ι R) = (120 : R) • 1 := by
  rw [denom_eq, numer_eq]
  simp

theorem numer_diagonal (f : ι → R) : numer (diagonal f) = diagonal fun i => p (f i) := by
  rw [numer_eq]
  ext i j
  by_cases h : i = j
  · subst h
    simp [p]
    ring
  · simp [h]

theorem denom_diagonal (f : ι → R) : denom (diagonal f) = diagonal fun i => p (-f i) := by
  rw [denom_eq, ← numer_diagonal, ← Matrix.diagonal_neg]

end Pade

section Taylor

open Hyper

variable {R : Type} [Field R] [CharZero R] {ι : Type} [Fintype ι] [DecidableEq ι] {d : Nat}

theorem taylor_eq (x : Hyp d ι ι R) :
    let y := Hyper.add (Hyper.add (identity d) (scalarMultiply x (1 / 4)))
      (scalarMultiply (multiply x x) (1 / 32))
    exponentialMap x = multiply (multiply y y) (multiply y y) := by
  intro y
  have hy : Hyper.add (addDiagonal (scalarMultiply x (1 / 2 ^ 2)) 1)
      (scalarMultiply (multiply x (scalarMultiply x (1 / 2 ^ 2))) (1 / 2 * (1 / 2 ^ 2))) = y := by
    simp only [y, multiply_scalar, scalar_scalar]
    congr 1
    · funext i
      simp only [Hyper.add, addDiagonal, identity, Hyper.scalar_apply, one_smul]
      split_ifs
      · rw [add_comm]
        norm_num
      · norm_num
    · norm_num
  simp only [exponentialMap, taylor]
  rw [hy]

end Taylor

end Verif.MatrixExp
