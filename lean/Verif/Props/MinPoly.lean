import Verif.Lemmas.MinPoly

/-!
# C81: eigenvalues from the minimal polynomial

`Eigenvalues` returns as many numbers as the matrix has rows, and every eigenvalue is among them.  They
are exactly the eigenvalues if these are all distinct.  With a repeated eigenvalue a solver with column
pivots makes it return a number that is no eigenvalue, as for the identity of order 2.
-/

namespace Verif.MinPoly

open Matrix Hyper HermLmi Spec

variable {d n : Nat} {solve : Solver ℝ} {eig : ∀ n : Nat, Matrix (Fin n) (Fin n) ℝ → List ℝ}

/-- `n` results, and no eigenvalue is missing. -/
theorem C81_complete (hs : LeastSquares solve) (he : RealParts eig) (hd : d = 1 ∨ d = 2 ∨ d = 4)
    {x : HMat d n ℝ} (hx : Hyper.Spec.Hermitian x) (hn : 0 < n) :
    (eigenvalues solve eig x).length = n ∧
      ∀ μ, HermLmi.Spec.Eigenvalue x μ → μ ∈ eigenvalues solve eig x :=
  ⟨eig_length he _, fun _ hμ => eigenvalue_mem he (eigenvalue_companion hs hd hx hn hμ)⟩

/-- The results are the eigenvalues if there are `n` of them.  Without this hypothesis the claim fails,
see `C81_exact_violated`. -/
theorem C81_exact_partial (hs : LeastSquares solve) (he : RealParts eig) (hd : d = 1 ∨ d = 2 ∨ d = 4)
    {x : HMat d n ℝ} (hx : Hyper.Spec.Hermitian x) (hn : 0 < n) {s : Finset ℝ} (hcard : s.card = n)
    (hall : ∀ μ ∈ s, HermLmi.Spec.Eigenvalue x μ) (μ : ℝ) :
    μ ∈ eigenvalues solve eig x ↔ HermLmi.Spec.Eigenvalue x μ := by
  classical
  obtain ⟨h1, h2⟩ := C81_complete hs he hd hx hn
  refine ⟨fun h => ?_, h2 μ⟩
  have hsub : s ⊆ (eigenvalues solve eig x).toFinset := fun ν hν =>
    List.mem_toFinset.2 (h2 ν (hall ν hν))
  have heq := Finset.eq_of_subset_of_card_le hsub
    ((List.toFinset_card_le _).trans (by rw [h1, hcard]))
  exact hall μ (heq ▸ List.mem_toFinset.2 h)

/-- A Hermitian matrix of order 2 with eigenvalues 0 and 2. -/
def exX : HMat 2 2 ℝ := fun c => if c.1 = 0 then 1 else !![0, 1; -1, 0]

theorem exX_herm : Hyper.Spec.Hermitian exX := by
  intro i r c
  fin_cases i <;> fin_cases r <;> fin_cases c <;> simp [exX]

/-- An eigenvector for 0, and one for 2. -/
def exCol (t : ℝ) : Col 2 2 ℝ := fun c r _ => if c.1 = r.1 then (if c.1 = 0 then 1 else t) else 0

theorem exX_eigen : ∀ μ ∈ ({0, 2} : Finset ℝ), HermLmi.Spec.Eigenvalue exX μ := by
  intro μ hμ
  simp only [Finset.mem_insert, Finset.mem_singleton] at hμ
  rcases hμ with rfl | rfl
  · refine ⟨exCol 1, fun h => ?_, fun c r => ?_⟩
    · simpa [exCol] using congrFun (congrFun (congrFun h 0) 0) ()
    · rw [multiply_apply]
      fin_cases c <;> fin_cases r <;>
        simp [Fin.sum_univ_two, gam, index, sign, indexTable, signTable, exX, exCol, Matrix.mul_apply, vecMul,
          dotProduct]
  · refine ⟨exCol (-1), fun h => ?_, fun c r => ?_⟩
    · simpa [exCol] using congrFun (congrFun (congrFun h 0) 0) ()
    · rw [multiply_apply]
      fin_cases c <;> fin_cases r <;>
        simp [Fin.sum_univ_two, gam, index, sign, indexTable, signTable, exX, exCol, Matrix.mul_apply, vecMul,
          dotProduct] <;> norm_num

example : (∃ solve, LeastSquares solve) ∧ (∃ eig, RealParts eig) ∧ Hyper.Spec.Hermitian exX ∧
    ({0, 2} : Finset ℝ).card = 2 ∧ ∀ μ ∈ ({0, 2} : Finset ℝ), HermLmi.Spec.Eigenvalue exX μ :=
  ⟨exists_solver.imp fun _ h => h.1, exists_eig, exX_herm,
    Finset.card_pair (by norm_num), exX_eigen⟩

theorem power_identity (i : Nat) : power (identity 1 : HMat 1 2 ℝ) i = identity 1 := by
  refine lmat_injective (.inl rfl) ?_
  rw [lmat_power (.inl rfl), lmat_identity (.inl rfl), one_pow]

theorem eigenvalue_identity {μ : ℝ} (h : HermLmi.Spec.Eigenvalue (identity 1 : HMat 1 2 ℝ) μ) : μ = 1 := by
  obtain ⟨v, hv, h⟩ := (eigenvalue_lmat _ _).1 h
  rw [lmat_identity (.inl rfl), one_mulVec] at h
  by_contra hne
  refine hv ?_
  have : (μ - 1) • v = 0 := by rw [sub_smul, one_smul, ← h, sub_self]
  rcases smul_eq_zero.1 this with h0 | h0
  · exact absurd (by linarith) hne
  · exact h0

theorem identity_eigenvalue : HermLmi.Spec.Eigenvalue (identity 1 : HMat 1 2 ℝ) 1 := by
  rw [eigenvalue_lmat, lmat_identity (.inl rfl)]
  refine ⟨fun _ => 1, fun h => ?_, by simp⟩
  simpa using congrFun h (0, 0)

/-- The identity of order 2 has the eigenvalue 1 only, and another number is returned. -/
theorem C81_exact_violated : ∃ x : HMat 1 2 ℝ, Hyper.Spec.Hermitian x ∧
    ∀ solve eig, LeastSquares solve → Basic solve → RealParts eig →
      ∃ μ ∈ eigenvalues solve eig x, ¬ HermLmi.Spec.Eigenvalue x μ := by
  have hx : Hyper.Spec.Hermitian (identity 1 : HMat 1 2 ℝ) := by
    rw [hermitian_lmat (.inl rfl), lmat_identity (.inl rfl), transpose_one]
  refine ⟨identity 1, hx, fun solve eig hs hb he => ?_⟩
  have hroot := minimalPolynomial_root hs (.inl rfl) hx identity_eigenvalue
  simp only [Fin.sum_univ_two, one_pow, mul_one] at hroot
  have hcard : (Finset.univ.filter fun i => minimalPolynomial solve (identity 1 : HMat 1 2 ℝ) i ≠ 0).card
      ≤ 1 := by
    refine (hb 1 2 _ _).trans ?_
    have : (fun (q : Pos 1 2) (i : Fin 2) => vect (power (identity 1 : HMat 1 2 ℝ) i) q) =
        vecMulVec (vect (identity 1 : HMat 1 2 ℝ)) fun _ => 1 := by
      funext q i
      rw [power_identity, vecMulVec_apply, mul_one]
    rw [this]
    exact rank_vecMulVec_le _ _
  have hzero : minimalPolynomial solve (identity 1 : HMat 1 2 ℝ) 0 = 0 ∨
      minimalPolynomial solve (identity 1 : HMat 1 2 ℝ) 1 = 0 := by
    by_contra h
    rw [not_or] at h
    have : (Finset.univ.filter fun i => minimalPolynomial solve (identity 1 : HMat 1 2 ℝ) i ≠ 0) =
        Finset.univ := by
      refine Finset.filter_true_of_mem fun i _ => ?_
      fin_cases i
      · exact h.1
      · exact h.2
    rw [this] at hcard
    simp at hcard
  have key : ∀ μ : ℝ, minimalPolynomial solve (identity 1 : HMat 1 2 ℝ) 0 +
      minimalPolynomial solve (identity 1 : HMat 1 2 ℝ) 1 * μ + μ ^ 2 = 0 → μ ≠ 1 →
      ∃ μ ∈ eigenvalues solve eig (identity 1 : HMat 1 2 ℝ),
        ¬ HermLmi.Spec.Eigenvalue (identity 1 : HMat 1 2 ℝ) μ := by
    intro μ hμ h1
    refine ⟨μ, eigenvalue_mem he ⟨_, fun h0 => ?_, companion_mulVec ?_⟩,
      fun h => h1 (eigenvalue_identity h)⟩
    · simpa using congrFun h0 0
    · simpa [Fin.sum_univ_two] using hμ
  rcases hzero with h0 | h0
  · exact key 0 (by rw [h0]; ring) (by norm_num)
  · refine key (-1) ?_ (by norm_num)
    rw [h0] at hroot ⊢
    linarith

example : ∃ solve : Solver ℝ, LeastSquares solve ∧ Basic solve := exists_solver

end Verif.MinPoly
