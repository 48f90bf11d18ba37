import Mathlib.Analysis.Real.Sqrt
import Mathlib.LinearAlgebra.Matrix.Charpoly.Coeff
import Mathlib.LinearAlgebra.Matrix.ToLinearEquiv
import Verif.Lemmas.PlainLanczos

/-!
# C79: approximate eigenvalues of one matrix

`ApproximateEigenvalues(A, r0, num_iter)` for real and for hypercomplex matrices.  For a Hermitian `A`
all results are Rayleigh quotients; after as many steps as `A` has rows they are the eigenvalues.  The
recurrence has no early stop: it gives numbers just if the vectors `r, A r, A² r, ...` are independent,
so never for more steps than rows, and not for a start vector that is an eigenvector.
-/

namespace Verif.Plain

open Matrix SolveLoop.Spec MatrixExp.Spec Hyper Hyper.Spec HermLmi Spec

variable {R : Type} [Field R] [LinearOrder R] [IsStrictOrderedRing R] {ι : Type} [Fintype ι]
  [DecidableEq ι] {sqrt : R → R} {tri : List R → List R → List R}

/-- All eigenvalues of the tridiagonal matrix, for the examples. -/
noncomputable def exTri (a b : List ℝ) : List ℝ := (Lmi.Spec.jacobi a b).charpoly.roots.toList

theorem exTri_all : AllEigenvalues exTri := by
  intro a b _ t
  unfold exTri
  rw [Multiset.mem_toList, Polynomial.mem_roots (Matrix.charpoly_monic _).ne_zero, Polynomial.IsRoot,
    Matrix.eval_charpoly, ← Matrix.exists_mulVec_eq_zero_iff]
  refine exists_congr fun v => and_congr_right fun _ => ?_
  rw [Matrix.sub_mulVec, Matrix.scalar_apply, ← Matrix.smul_one_eq_diagonal, Matrix.smul_mulVec,
    Matrix.one_mulVec, sub_eq_zero, eq_comm]

theorem exSqrt : ∀ x : ℝ, 0 ≤ x → SqrtAt Real.sqrt x := fun x hx =>
  ⟨Real.sqrt_nonneg x, Real.mul_self_sqrt hx⟩

/-- A symmetric matrix for the examples; its eigenvalues are 1 and 3. -/
def exA : Matrix (Fin 2) (Fin 2) ℝ := !![2, 1; 1, 2]

theorem exA_sym : exAᵀ = exA := by
  ext i j
  fin_cases i <;> fin_cases j <;> rfl

theorem ex_run : lanczos Real.sqrt exA ![1, 0] 2 = .ok (some ([2, 2], [1])) := by
  have e1 : (fun i => (![1, 0] : Fin 2 → ℝ) i / 1) = ![1, 0] := by
    funext i
    simp
  have e2 : (![1, 0] : Fin 2 → ℝ) ᵥ* exA ⬝ᵥ ![1, 0] = 2 := by
    simp [exA, vecMul, dotProduct, Fin.sum_univ_two]
  have e3 : exA *ᵥ ![1, 0] - (2 : ℝ) • ![1, 0] = (![0, 1] : Fin 2 → ℝ) := by
    funext i
    fin_cases i <;> simp [exA, mulVec, dotProduct, Fin.sum_univ_two]
  have e4 : (![1, 0] : Fin 2 → ℝ) ⬝ᵥ ![1, 0] = 1 := by simp [dotProduct, Fin.sum_univ_two]
  have e5 : (![0, 1] : Fin 2 → ℝ) ⬝ᵥ ![0, 1] = 1 := by simp [dotProduct, Fin.sum_univ_two]
  have e6 : (fun i => (![0, 1] : Fin 2 → ℝ) i / 1) = ![0, 1] := by
    funext i
    simp
  have e7 : (![0, 1] : Fin 2 → ℝ) ᵥ* exA ⬝ᵥ ![0, 1] = 2 := by
    simp [exA, vecMul, dotProduct, Fin.sum_univ_two]
  unfold lanczos
  simp only [e4, Real.sqrt_one, e1, e2, e3]
  simp [loop, e5, e6, e7]

/-- **C79, Ritz values**: for a symmetric matrix every result is a Rayleigh quotient, so it lies between
the least and the greatest eigenvalue. -/
theorem C79_ritz (hsq : ∀ x, 0 ≤ x → SqrtAt sqrt x) (ht : AllEigenvalues tri) (A : Matrix ι ι R)
    (hA : Aᵀ = A) (r : ι → R) (iters : Nat) (l : List R)
    (h : eigenvalues sqrt tri A r iters = .ok (some l)) :
    (∀ t ∈ l, Rayleigh A t) ∧
      ∀ lo hi, (∀ x, lo * (x ⬝ᵥ x) ≤ x ⬝ᵥ (A *ᵥ x) ∧ x ⬝ᵥ (A *ᵥ x) ≤ hi * (x ⬝ᵥ x)) →
        ∀ t ∈ l, lo ≤ t ∧ t ≤ hi := by
  have h1 := ritz hsq hA ht h
  refine ⟨h1, fun lo hi hb t hm => ?_⟩
  obtain ⟨x, hx, he⟩ := h1 t hm
  obtain ⟨h2, h3⟩ := hb x
  have h4 := dot_pos hx
  rw [he] at h2 h3
  exact ⟨le_of_mul_le_mul_right h2 h4, le_of_mul_le_mul_right h3 h4⟩

/-- The hypotheses of `C79_ritz` hold for a matrix, a start vector and two steps. -/
example : (∀ x : ℝ, 0 ≤ x → SqrtAt Real.sqrt x) ∧ AllEigenvalues exTri ∧ exAᵀ = exA ∧
    eigenvalues Real.sqrt exTri exA ![1, 0] 2 = .ok (some (exTri [2, 2] [1])) :=
  ⟨exSqrt, exTri_all, exA_sym, by unfold eigenvalues; rw [ex_run]; rfl⟩

/-- **C79, exactness**: after as many steps as the matrix has rows the results are the eigenvalues, all
of them and no other numbers. -/
theorem C79_exact (hsq : ∀ x, 0 ≤ x → SqrtAt sqrt x) (ht : AllEigenvalues tri) (A : Matrix ι ι R)
    (hA : Aᵀ = A) (r : ι → R) (l : List R)
    (h : eigenvalues sqrt tri A r (Fintype.card ι) = .ok (some l)) (t : R) :
    t ∈ l ↔ Eigenvalue A t :=
  exact hsq hA ht (one_units A) (by simp) h t

/-- The hypothesis on the run holds for a matrix with two rows, and 3 is a result. -/
example : eigenvalues Real.sqrt exTri exA ![1, 0] (Fintype.card (Fin 2)) =
      .ok (some (exTri [2, 2] [1])) ∧ Eigenvalue exA 3 := by
  refine ⟨by unfold eigenvalues; rw [Fintype.card_fin, ex_run]; rfl, ![1, 1], ?_, ?_⟩
  · intro e
    have := congrFun e 0
    simp at this
  · funext i
    fin_cases i <;> norm_num [exA, mulVec, dotProduct, Fin.sum_univ_two]

/-- **C79, when there are numbers**: the recurrence gives numbers just if the vectors
`r, A r, ..., A^(k-1) r` are linearly independent; `k` is the number of steps. -/
theorem C79_defined_iff_partial (hsq : ∀ x, 0 ≤ x → SqrtAt sqrt x) (A : Matrix ι ι R) (hA : Aᵀ = A)
    (r : ι → R) (iters : Nat) (h0 : iters ≠ 0) :
    (∃ l, eigenvalues sqrt tri A r iters = .ok (some l)) ↔
      LinearIndependent R fun k : Fin iters => A ^ k.1 *ᵥ r := by
  rw [← lanczos_iff hsq hA h0]
  constructor
  · rintro ⟨l, hl⟩
    obtain ⟨q, hq, -⟩ := eigenvalues_some hl
    exact ⟨q, hq⟩
  · rintro ⟨q, hq⟩
    exact ⟨_, by unfold eigenvalues; rw [hq]; rfl⟩

/-- The right side holds for a matrix and two steps. -/
example : LinearIndependent ℝ fun k : Fin 2 => exA ^ k.1 *ᵥ ![1, 0] :=
  (lanczos_iff exSqrt exA_sym (by decide)).1 ⟨_, ex_run⟩

/-- **C79, too many steps**: with more steps than rows all results are NaN, for every symmetric matrix
and every start vector. -/
theorem C79_overrun (hsq : ∀ x, 0 ≤ x → SqrtAt sqrt x) (A : Matrix ι ι R) (hA : Aᵀ = A) (r : ι → R)
    (iters : Nat) (h : Fintype.card ι < iters) : eigenvalues sqrt tri A r iters = .ok none := by
  unfold eigenvalues
  rw [overrun hsq hA (one_units A) (by simpa using h)]
  rfl

/-- The hypotheses hold for a matrix with two rows and three steps. -/
example : exAᵀ = exA ∧ Fintype.card (Fin 2) < 3 := ⟨exA_sym, by decide⟩

/-- **C79 is violated**: the start vector is not zero, there are no more steps than rows, and the
results are NaN: the start vector is an eigenvector.  The recurrence for scaled slacks stops early in
the same case and gives the eigenvalue. -/
theorem C79_defined_violated :
    ∃ (A : Matrix (Fin 2) (Fin 2) ℝ) (r : Fin 2 → ℝ), Aᵀ = A ∧ r ≠ 0 ∧
      eigenvalues Real.sqrt exTri A r 2 = .ok none ∧
      Lanczos.lanczos Real.sqrt A 1 r 2 = some ([1], []) := by
  have e1 : (fun i => (![1, 0] : Fin 2 → ℝ) i / 1) = ![1, 0] := by
    funext i
    simp
  have e4 : (![1, 0] : Fin 2 → ℝ) ⬝ᵥ ![1, 0] = 1 := by simp [dotProduct, Fin.sum_univ_two]
  refine ⟨1, ![1, 0], by simp, ?_, ?_, ?_⟩
  · intro e
    have := congrFun e 0
    simp at this
  · unfold eigenvalues lanczos
    simp only [e4, Real.sqrt_one, e1, vecMul_one, one_mulVec, one_smul, sub_self]
    simp [loop]
  · unfold Lanczos.lanczos
    simp only [Lanczos.inner, Lanczos.apply, Lanczos.divBy, Lanczos.subSmul, one_mulVec, e4,
      Real.sqrt_one, e1, transpose_one, one_smul, sub_self]
    simp [Lanczos.loop, Lanczos.inner]

section Hyper

variable {d n : Nat} [NeZero d]

/-- **C79, hypercomplex matrices**: for a Hermitian matrix, octonions included, every result is a
Rayleigh quotient. -/
theorem C79_hyper_ritz (hd : Dim d) (hsq : ∀ x, 0 ≤ x → SqrtAt sqrt x) (ht : AllEigenvalues tri)
    (A : HMat d n R) (hA : Hyper.Spec.Hermitian A) (r : Col d n R) (iters : Nat) (l : List R)
    (h : eigenvaluesH sqrt tri A r iters = .ok (some l)) : ∀ t ∈ l, RayleighH A t := by
  rw [eigenvaluesH_eq hd] at h
  exact fun t hm => rayleigh_flat (ritz hsq ((hermitian_lmat hd A).1 hA) ht h t hm)

/-- **C79, hypercomplex matrices, exactness**: for real, complex and quaternion matrices with `n` rows
the results after `n` steps are the eigenvalues. -/
theorem C79_hyper_exact (hd : d = 1 ∨ d = 2 ∨ d = 4) (hsq : ∀ x, 0 ≤ x → SqrtAt sqrt x)
    (ht : AllEigenvalues tri) (A : HMat d n R) (hA : Hyper.Spec.Hermitian A) (r : Col d n R) (l : List R)
    (h : eigenvaluesH sqrt tri A r n = .ok (some l)) (t : R) : t ∈ l ↔ HermLmi.Spec.Eigenvalue A t := by
  have hD := dim_of_assoc hd
  rw [eigenvaluesH_eq hD] at h
  rw [eigenvalue_lmat]
  have : Nonempty (Fin d) := ⟨0⟩
  exact exact hsq ((hermitian_lmat hD A).1 hA) ht (rmat_units hd A) (by simp) h t

/-- **C79, hypercomplex matrices, too many steps**: with more steps than the matrix has rows all
results are NaN, for real, complex and quaternion matrices. -/
theorem C79_hyper_overrun (hd : d = 1 ∨ d = 2 ∨ d = 4) (hsq : ∀ x, 0 ≤ x → SqrtAt sqrt x)
    (A : HMat d n R) (hA : Hyper.Spec.Hermitian A) (r : Col d n R) (iters : Nat) (h : n < iters) :
    eigenvaluesH sqrt tri A r iters = .ok none := by
  have hD := dim_of_assoc hd
  rw [eigenvaluesH_eq hD]
  unfold eigenvalues
  rw [overrun hsq ((hermitian_lmat hD A).1 hA) (rmat_units hd A) (by
    simpa using Nat.mul_lt_mul_of_pos_left h (Nat.pos_of_ne_zero (NeZero.ne d)))]
  rfl

/-- A complex Hermitian matrix with rows `(1, i)` and `(-i, 1)`. -/
def exH : HMat 2 2 ℝ := fun c => if c.1 = 0 then 1 else !![0, 1; -1, 0]

/-- A start vector. -/
def exCol : Col 2 2 ℝ := fun c i _ => if c.1 = 0 ∧ i.1 = 0 then 1 else 0

theorem exH_run : ∃ q, lanczosH Real.sqrt exH exCol 2 = .ok (some q) := by
  have hs : squaredNorm exCol = 1 := by
    simp [squaredNorm, exCol, Fin.sum_univ_two]
  have h1 : scalarMultiply exCol (1 / 1) = exCol := by
    funext c
    ext i j
    simp [scalarMultiply]
  unfold lanczosH
  simp only [hs, Real.sqrt_one, h1]
  have hw : squaredNorm (Hyper.add (multiply exH exCol) (scalarMultiply exCol (-quotient exH exCol))) = 1 := by
    have hm : ∀ c i, multiply exH exCol c i () =
        if c.1 = 0 ∧ i.1 = 0 then 1 else if c.1 = 1 ∧ i.1 = 1 then -1 else 0 := by
      intro c i
      rw [multiply_apply]
      fin_cases c <;> fin_cases i <;>
        simp [Fin.sum_univ_two, gam, index, sign, indexTable, signTable, exH, exCol,
          Matrix.mul_apply, vecMul, dotProduct]
    have hq : quotient exH exCol = 1 := by
      unfold quotient
      rw [multiply_apply]
      simp [Fin.sum_univ_two, gam, index, sign, indexTable, signTable, exCol, Matrix.mul_apply, hm,
        Hyper.conjTranspose]
    simp only [hq, squaredNorm, Hyper.add, scalarMultiply, Fin.sum_univ_two, Matrix.add_apply, hm]
    simp [exCol]
  simp [loopH, hw]

theorem exH_herm : Hyper.Spec.Hermitian exH := by
  rw [hermitian_iff]
  funext c
  ext i j
  fin_cases c <;> fin_cases i <;> fin_cases j <;> simp [Hyper.conjTranspose, exH]

/-- The hypotheses of the theorems on hypercomplex matrices hold for a complex matrix with two rows. -/
example : Hyper.Spec.Hermitian exH ∧
    ∃ l, eigenvaluesH Real.sqrt exTri exH exCol 2 = .ok (some l) := by
  obtain ⟨q, hq⟩ := exH_run
  exact ⟨exH_herm, _, by unfold eigenvaluesH; rw [hq]; rfl⟩

end Hyper

end Verif.Plain
