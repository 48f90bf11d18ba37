import Verif.Model.Geodesic
import Verif.Lemmas.HermitianLmi
import Mathlib.LinearAlgebra.Matrix.PosDef

/-!
# Lemmas on the geodesic update (C76)
-/

namespace Verif.MatrixExp

open Hyper Matrix

variable {R : Type} [Field R] {n d : Nat}

theorem lmat_quadRep [CharZero R] (hd : d = 1 ∨ d = 2 ∨ d = 4) (x y : Hyp d (Fin n) (Fin n) R) :
    lmat (quadRep x y) = lmat x * lmat y * lmat x := by
  rw [quadRep_assoc hd, lmat_multiply hd, lmat_multiply hd]

theorem lmat_hermitian [CharZero R] (hd : Hyper.Spec.Dim d) {x : Hyp d (Fin n) (Fin n) R} (h : (lmat x)ᵀ = lmat x) :
    lmat (scalarMultiply (add x (conjTranspose x)) (1 / 2)) = lmat x := by
  rw [lmat_scalar, lmat_add, lmat_conj hd, h, ← two_smul R, smul_smul]
  norm_num

/-- What the variables are after `m` passes. -/
def Good (w s : Hyp d (Fin n) (Fin n) R) (m : Nat) (t : Terms d (Fin n) R) : Prop :=
  lmat t.y1 = (lmat w * lmat s) ^ (2 * m) * lmat w ∧ lmat t.y2 = (lmat w * lmat s) ^ (2 * m + 1) * lmat w ∧
  lmat t.y = ∑ k ∈ Finset.range (2 * m + 2), (1 / (factorial k : R)) • ((lmat w * lmat s) ^ k * lmat w)

theorem transpose_pow_mul {ι : Type} [Fintype ι] [DecidableEq ι] {W S : Matrix ι ι R} (hW : Wᵀ = W) (hS : Sᵀ = S) (k : Nat) :
    ((W * S) ^ k * W)ᵀ = (W * S) ^ k * W := by
  rw [transpose_mul, transpose_pow, transpose_mul, hW, hS]
  induction k with
  | zero => simp
  | succ k ih => rw [pow_succ (S * W), pow_succ (W * S), ← Matrix.mul_assoc, ih]; simp only [Matrix.mul_assoc]

theorem two_more {ι : Type} [Fintype ι] [DecidableEq ι] (W S : Matrix ι ι R) (k : Nat) :
    W * (S * ((W * S) ^ k * W) * S) * W = (W * S) ^ (k + 2) * W := by
  rw [show k + 2 = k + 1 + 1 by ring, pow_succ', pow_succ]
  simp only [Matrix.mul_assoc]

theorem step_good [CharZero R] (hd : d = 1 ∨ d = 2 ∨ d = 4) {w s : Hyp d (Fin n) (Fin n) R}
    (hw : Hyper.Spec.Hermitian w) (hs : Hyper.Spec.Hermitian s) {m : Nat} {t : Terms d (Fin n) R} (h : Good w s m t) :
    Good w s (m + 1) (geodesicStep w s t (m + 1)) := by
  have hD := dim_of_assoc hd
  rw [HermLmi.hermitian_lmat hD] at hw hs
  obtain ⟨h1, h2, h3⟩ := h
  have e1 : lmat (quadRep w (quadRep s t.y1)) = (lmat w * lmat s) ^ (2 * (m + 1)) * lmat w := by
    rw [lmat_quadRep hd, lmat_quadRep hd, h1, two_more]
    rfl
  have e2 : lmat (quadRep w (quadRep s t.y2)) = (lmat w * lmat s) ^ (2 * (m + 1) + 1) * lmat w := by
    rw [lmat_quadRep hd, lmat_quadRep hd, h2, two_more]
    congr 2
  refine ⟨?_, ?_, ?_⟩
  · exact (lmat_hermitian hD (by rw [e1, transpose_pow_mul hw hs])).trans e1
  · exact (lmat_hermitian hD (by rw [e2, transpose_pow_mul hw hs])).trans e2
  · have e3 : lmat (add t.y (add (scalarMultiply (quadRep w (quadRep s t.y1)) (1 / factorial (2 * (m + 1))))
        (scalarMultiply (quadRep w (quadRep s t.y2)) (1 / factorial (2 * (m + 1) + 1))))) =
        ∑ k ∈ Finset.range (2 * (m + 1) + 2), (1 / (factorial k : R)) • ((lmat w * lmat s) ^ k * lmat w) := by
      rw [lmat_add, lmat_add, lmat_scalar, lmat_scalar, e1, e2, h3,
        show 2 * (m + 1) + 2 = 2 * m + 2 + 1 + 1 by ring, Finset.sum_range_succ (n := 2 * m + 2 + 1),
        Finset.sum_range_succ (n := 2 * m + 2), add_assoc, show 2 * (m + 1) = 2 * m + 2 by ring]
    refine (lmat_hermitian hD ?_).trans e3
    rw [e3, transpose_sum]
    exact Finset.sum_congr rfl fun k _ => by rw [transpose_smul, transpose_pow_mul hw hs]

/-- The update as a real matrix. -/
theorem lmat_geodesic [CharZero R] (hd : d = 1 ∨ d = 2 ∨ d = 4) {w s : Hyp d (Fin n) (Fin n) R}
    (hw : Hyper.Spec.Hermitian w) (hs : Hyper.Spec.Hermitian s) :
    lmat (geodesic w s) =
      ∑ k ∈ Finset.range 12, (1 / (factorial k : R)) • ((lmat w * lmat s) ^ k * lmat w) := by
  have h0 : Good w s 0 ⟨w, quadRep w s, add w (quadRep w s)⟩ := by
    refine ⟨by simp, by simp [lmat_quadRep hd], ?_⟩
    rw [lmat_add, lmat_quadRep hd]
    simp [Finset.sum_range_succ, factorial]
  exact (step_good hd hw hs (step_good hd hw hs (step_good hd hw hs (step_good hd hw hs (step_good hd hw hs h0))))).2.2

theorem factorial_eq (n : Nat) : factorial n = n.factorial := by
  cases n with
  | zero => rfl
  | succ n =>
    induction n with
    | zero => rfl
    | succ k ih =>
      have : factorial (k + 2) = factorial (k + 1) * (k + 2) := by
        simp [factorial, List.range_succ]
      rw [this, ih, Nat.factorial_succ (k + 1), mul_comm]

/-- Two terms make a positive semidefinite matrix. -/
theorem pair_posSemidef {ι : Type} [Fintype ι] [DecidableEq ι] {W S : Matrix ι ι ℝ} (hW : W.PosDef) (hS : Sᵀ = S)
    (h : (W + W * S * W).PosDef) (m : Nat) : ((1 / (factorial (2 * m) : ℝ)) • ((W * S) ^ (2 * m) * W) +
      (1 / (factorial (2 * m + 1) : ℝ)) • ((W * S) ^ (2 * m + 1) * W)).PosSemidef := by
  have hWt : Wᵀ = W := by simpa using hW.1.eq
  set a : ℝ := 1 / (factorial (2 * m) : ℝ)
  set b : ℝ := 1 / (factorial (2 * m + 1) : ℝ)
  have hb : 0 ≤ b := by positivity
  have hab : b ≤ a := by
    refine one_div_le_one_div_of_le ?_ ?_ <;> rw [factorial_eq]
    · exact_mod_cast Nat.factorial_pos _
    · rw [factorial_eq]
      exact_mod_cast Nat.factorial_le (by omega)
  have hM : ((a - b) • W + b • (W + W * S * W)).PosSemidef :=
    (hW.posSemidef.smul (sub_nonneg.2 hab)).add (h.posSemidef.smul hb)
  have key := hM.mul_mul_conjTranspose_same ((W * S) ^ m)
  rw [conjTranspose_eq_transpose_of_trivial, transpose_pow, transpose_mul, hWt, hS] at key
  have e : ∀ k, W * (S * W) ^ k = (W * S) ^ k * W := by
    intro k
    induction k with
    | zero => simp
    | succ k ih => rw [pow_succ (S * W), pow_succ (W * S), ← Matrix.mul_assoc, ih]; simp only [Matrix.mul_assoc]
  have e1 : (W * S) ^ (2 * m) * W = (W * S) ^ m * W * (S * W) ^ m := by
    rw [two_mul, pow_add, Matrix.mul_assoc, Matrix.mul_assoc, e]
  have e2 : (W * S) ^ (2 * m + 1) * W = (W * S) ^ m * (W * S * W) * (S * W) ^ m := by
    rw [Matrix.mul_assoc _ (W * S * W), Matrix.mul_assoc (W * S) W, e, ← Matrix.mul_assoc, ← Matrix.mul_assoc, ← pow_succ,
      ← pow_add, show m + 1 + m = 2 * m + 1 by ring]
  rw [e1, e2]
  convert key using 1
  simp only [Matrix.mul_add, Matrix.add_mul, Matrix.mul_smul, Matrix.smul_mul, sub_smul, Matrix.sub_mul, Matrix.mul_sub,
    smul_add]
  abel

end Verif.MatrixExp
