import Mathlib.Algebra.Polynomial.AlgebraMap
import Mathlib.Algebra.Polynomial.BigOperators
import Mathlib.Data.Complex.Basic
import Verif.Spec.MinPoly
import Verif.Lemmas.PlainLanczos
import Verif.Lemmas.Lmi

/-!
# Lemmas on eigenvalues from the minimal polynomial
-/

namespace Verif.MinPoly

open Matrix Finset Hyper Polynomial

section Annihilator

variable {ι κ : Type} [Fintype ι] [DecidableEq ι] [Fintype κ] [DecidableEq κ]

theorem aeval_mulVec {L : Matrix ι ι ℝ} {v : ι → ℝ} {μ : ℝ} (h : L *ᵥ v = μ • v) (p : ℝ[X]) :
    aeval L p *ᵥ v = p.eval μ • v := by
  induction p using Polynomial.induction_on' with
  | add p q hp hq => rw [map_add, add_mulVec, hp, hq, eval_add, add_smul]
  | monomial k a =>
    rw [aeval_monomial, eval_monomial, ← Matrix.mulVec_mulVec]
    have : ∀ k, (L ^ k) *ᵥ v = μ ^ k • v := by
      intro k
      induction k with
      | zero => simp
      | succ k ih => rw [pow_succ, ← mulVec_mulVec, h, mulVec_smul, ih, smul_smul, pow_succ, mul_comm]
    rw [this, mulVec_smul, Matrix.algebraMap_eq_diagonal]
    funext i
    simp [mulVec_diagonal]
    ring

/-- Distinct eigenvalues of a matrix that commutes with units. -/
theorem distinct_card [Nonempty κ] {L : Matrix ι ι ℝ} (hL : Lᵀ = L) {Q : κ → Matrix ι ι ℝ}
    (hQ : Plain.Units L Q) {s : Finset ℝ} (hs : ∀ μ ∈ s, MatrixExp.Spec.Eigenvalue L μ) :
    Fintype.card κ * s.card ≤ Fintype.card ι := by
  classical
  have hs' : ∀ μ : s, ∃ u : ι → ℝ, L *ᵥ u = μ.1 • u ∧ u ⬝ᵥ u = 1 := by
    intro μ
    obtain ⟨v, hv, h⟩ := hs μ.1 μ.2
    have hp := Plain.dot_pos hv
    refine ⟨(Real.sqrt (v ⬝ᵥ v))⁻¹ • v, ?_, ?_⟩
    · rw [mulVec_smul, h, smul_comm]
    · rw [smul_dotProduct, dotProduct_smul, smul_eq_mul, smul_eq_mul]
      have := Real.mul_self_sqrt hp.le
      have h0 : Real.sqrt (v ⬝ᵥ v) ≠ 0 := (Real.sqrt_pos.2 hp).ne'
      field_simp
      rw [pow_two, this]
  choose u hu hn using hs'
  let F : Matrix ι (κ × s) ℝ := fun i p => (Q p.1 *ᵥ u p.2) i
  have hF : Fᵀ * F = 1 := by
    ext p q
    have e : (Fᵀ * F) p q = u p.2 ⬝ᵥ (((Q p.1)ᵀ * Q q.1) *ᵥ u q.2) := by
      have : (Fᵀ * F) p q = (Q p.1 *ᵥ u p.2) ⬝ᵥ (Q q.1 *ᵥ u q.2) := by
        rw [Matrix.mul_apply]
        rfl
      rw [this, ← mulVec_mulVec, dotProduct_mulVec, dotProduct_mulVec, vecMul_transpose,
        ← dotProduct_mulVec]
    rw [e, Matrix.one_apply]
    by_cases h2 : p.2 = q.2
    · by_cases h1 : p.1 = q.1
      · rw [if_pos (Prod.ext h1 h2), h1, h2, hQ.orth, one_mulVec, hn]
      · rw [if_neg fun h => h1 (congrArg Prod.fst h), h2]
        have hk := hQ.skew _ _ h1
        have h3 : u q.2 ⬝ᵥ (((Q p.1)ᵀ * Q q.1) *ᵥ u q.2) =
            -(u q.2 ⬝ᵥ (((Q p.1)ᵀ * Q q.1) *ᵥ u q.2)) := by
          conv_lhs => rw [dotProduct_mulVec, ← mulVec_transpose, hk, neg_mulVec, neg_dotProduct,
            dotProduct_comm]
        linarith
    · rw [if_neg fun h => h2 (congrArg Prod.snd h)]
      have hT : ((Q p.1)ᵀ * Q q.1) * L = L * ((Q p.1)ᵀ * Q q.1) := by
        have h4 : (Q p.1)ᵀ * L = L * (Q p.1)ᵀ := by
          have := congrArg transpose (hQ.comm p.1)
          rw [transpose_mul, transpose_mul, hL] at this
          exact this.symm
        rw [Matrix.mul_assoc, hQ.comm, ← Matrix.mul_assoc, h4, Matrix.mul_assoc]
      have h5 : (q.2.1 - p.2.1) * (u p.2 ⬝ᵥ (((Q p.1)ᵀ * Q q.1) *ᵥ u q.2)) = 0 := by
        have h6 : u p.2 ⬝ᵥ ((((Q p.1)ᵀ * Q q.1) * L) *ᵥ u q.2) =
            q.2.1 * (u p.2 ⬝ᵥ (((Q p.1)ᵀ * Q q.1) *ᵥ u q.2)) := by
          rw [← mulVec_mulVec, hu, mulVec_smul, dotProduct_smul, smul_eq_mul]
        have h7 : u p.2 ⬝ᵥ ((L * ((Q p.1)ᵀ * Q q.1)) *ᵥ u q.2) =
            p.2.1 * (u p.2 ⬝ᵥ (((Q p.1)ᵀ * Q q.1) *ᵥ u q.2)) := by
          rw [← mulVec_mulVec, dotProduct_mulVec, ← mulVec_transpose, hL, hu, smul_dotProduct, smul_eq_mul]
        rw [hT, h7] at h6
        linarith
      rcases mul_eq_zero.1 h5 with h | h
      · exact absurd (Subtype.ext (by linarith)) h2
      · exact h
  have hi : Function.Injective F.mulVecLin := by
    intro x y hxy
    have := congrArg (fun z => Fᵀ *ᵥ z) hxy
    simpa [mulVecLin_apply, mulVec_mulVec, hF] using this
  have := LinearMap.finrank_le_finrank_of_injective hi
  simpa using this

theorem annihilator [Nonempty κ] {L : Matrix ι ι ℝ} (hL : Lᵀ = L) {Q : κ → Matrix ι ι ℝ}
    (hQ : Plain.Units L Q) {n : Nat} (hc : Fintype.card ι = Fintype.card κ * n) :
    ∃ p : ℝ[X], p.Monic ∧ p.natDegree = n ∧ aeval L p = 0 := by
  obtain ⟨U, l, h1, h2, h3⟩ := Lmi.exists_spectral hL
  have hu : ∀ i, L *ᵥ (fun r => U r i) = l i • fun r => U r i := by
    intro i
    have : L * U = U * diagonal l := by
      rw [h3, Matrix.mul_assoc, h2, Matrix.mul_one]
    funext r
    have := congrFun (congrFun this r) i
    rw [mul_diagonal, Matrix.mul_apply] at this
    simp only [mulVec, dotProduct, Pi.smul_apply, smul_eq_mul]
    rw [this, mul_comm]
  have hs : ∀ μ ∈ univ.image l, MatrixExp.Spec.Eigenvalue L μ := by
    intro μ hμ
    obtain ⟨i, -, rfl⟩ := mem_image.1 hμ
    refine ⟨fun r => U r i, fun h0 => ?_, hu i⟩
    have := congrFun (congrFun h2 i) i
    rw [Matrix.mul_apply, Matrix.one_apply_eq] at this
    have h4 : ∀ r, U r i = 0 := fun r => congrFun h0 r
    simp [h4] at this
  have hle : (univ.image l).card ≤ n := by
    have := distinct_card hL hQ hs
    rw [hc] at this
    exact Nat.le_of_mul_le_mul_left this Fintype.card_pos
  have hm : (∏ μ ∈ univ.image l, (X - C μ)).Monic := monic_prod_of_monic _ _ fun μ _ => monic_X_sub_C μ
  refine ⟨(∏ μ ∈ univ.image l, (X - C μ)) * X ^ (n - (univ.image l).card), hm.mul (monic_X_pow _), ?_, ?_⟩
  · rw [hm.natDegree_mul (monic_X_pow _), natDegree_X_pow, natDegree_prod_of_monic _ _
      fun μ _ => monic_X_sub_C μ]
    simp
    omega
  · have h5 : aeval L ((∏ μ ∈ univ.image l, (X - C μ)) * X ^ (n - (univ.image l).card)) * U = 0 := by
      ext r i
      have := congrFun (aeval_mulVec (hu i)
        ((∏ μ ∈ univ.image l, (X - C μ)) * X ^ (n - (univ.image l).card))) r
      rw [Matrix.mul_apply]
      simp only [mulVec, dotProduct] at this
      rw [this, eval_mul, eval_prod, prod_eq_zero (mem_image_of_mem l (mem_univ i)) (by simp)]
      simp
    have := congrArg (fun Z => Z * Uᵀ) h5
    simpa [Matrix.mul_assoc, h1] using this

end Annihilator

section Powers

variable {R : Type} [Field R] [CharZero R] {d n : Nat}

theorem lmat_power (hd : d = 1 ∨ d = 2 ∨ d = 4) (x : HermLmi.HMat d n R) (i : Nat) :
    lmat (power x i) = lmat x ^ i := by
  induction i with
  | zero => rw [power, lmat_identity (dim_of_assoc hd), pow_zero]
  | succ i ih =>
    rw [power, jordan, lmat_scalar, lmat_add, lmat_multiply hd, lmat_multiply hd, ih, ← pow_succ,
      ← pow_succ', ← two_smul R, smul_smul]
    norm_num

/-- The combination of the powers in real matrices. -/
theorem combination_iff (hd : d = 1 ∨ d = 2 ∨ d = 4) (x : HermLmi.HMat d n R) (c : Fin n → R) :
    (Matrix.of fun (q : Pos d n) (i : Fin n) => vect (power x i) q) *ᵥ c =
      (fun q => -vect (power x n) q) ↔
    ∑ i : Fin n, c i • lmat x ^ i.1 + lmat x ^ n = 0 := by
  have hl : lmat (fun k => ∑ i : Fin n, c i • power x i k + power x n k) =
      ∑ i : Fin n, c i • lmat x ^ i.1 + lmat x ^ n := by
    have e : (fun k => ∑ i : Fin n, c i • power x i k + power x n k) =
        Hyper.add (fun k => ∑ i : Fin n, c i • power x i k) (power x n) := rfl
    rw [e, lmat_add, lmat_power hd]
    congr 1
    have hind : ∀ s : Finset (Fin n), lmat (fun k => ∑ i ∈ s, c i • power x i k) =
        ∑ i ∈ s, c i • lmat x ^ i.1 := by
      intro s
      induction s using Finset.induction_on with
      | empty => ext p q; simp [lmat]
      | insert a s ha ih =>
        rw [sum_insert ha, ← ih, ← lmat_power hd, ← lmat_scalar, ← lmat_add]
        congr 1
        funext k
        rw [sum_insert ha]
        ext r s
        simp [Hyper.add, scalarMultiply, mul_comm]
    exact hind univ
  rw [← hl]
  have h0 : lmat (fun _ => 0 : HermLmi.HMat d n R) = 0 := by
    ext p q
    simp [lmat]
  constructor
  · intro h
    rw [← h0]
    congr 1
    funext k
    ext r s
    have := congrFun h (k, r, s)
    simp only [mulVec, dotProduct, Matrix.of_apply, vect] at this
    simp only [Matrix.add_apply, Matrix.sum_apply, Matrix.smul_apply, smul_eq_mul, Matrix.zero_apply]
    rw [sum_congr rfl fun i _ => mul_comm _ _, this]
    ring
  · intro h
    rw [← h0] at h
    have := lmat_injective (dim_of_assoc hd) h
    funext ⟨k, r, s⟩
    have := congrFun (congrFun (congrFun this k) r) s
    simp only [Matrix.add_apply, Matrix.sum_apply, Matrix.smul_apply, smul_eq_mul, Matrix.zero_apply] at this
    simp only [mulVec, dotProduct, Matrix.of_apply, vect]
    rw [sum_congr rfl fun i _ => mul_comm _ _]
    linear_combination this

/-- Powers of a root are an eigenvector of the companion matrix. -/
theorem companion_mulVec {c : Fin n → R} {μ : R} (h : ∑ i : Fin n, c i * μ ^ i.1 + μ ^ n = 0) :
    companion c *ᵥ (fun i : Fin n => μ ^ i.1) = μ • fun i : Fin n => μ ^ i.1 := by
  funext i
  simp only [mulVec, dotProduct, companion, Pi.smul_apply, smul_eq_mul]
  by_cases hi : i.1 + 1 = n
  · simp only [hi, if_true, neg_mul, sum_neg_distrib]
    rw [← pow_succ', hi]
    linear_combination -h
  · simp only [hi, if_false]
    have hi' : i.1 + 1 < n := by omega
    rw [sum_eq_single (⟨i.1 + 1, hi'⟩ : Fin n)]
    · simp [pow_succ']
    · intro b _ hb
      rw [if_neg fun h => hb (Fin.ext h.symm), zero_mul]
    · simp

end Powers

section Roots

variable {d n : Nat} {solve : Solver ℝ} {eig : ∀ n : Nat, Matrix (Fin n) (Fin n) ℝ → List ℝ}

theorem eigenvalue_charpoly {c : Matrix (Fin n) (Fin n) ℝ} {μ : ℝ} (h : MatrixExp.Spec.Eigenvalue c μ) :
    c.charpoly.IsRoot μ := by
  obtain ⟨v, hv, h⟩ := h
  rw [IsRoot.def, eval_charpoly]
  refine exists_mulVec_eq_zero_iff.1 ⟨v, hv, ?_⟩
  rw [sub_mulVec, h]
  funext i
  simp [mulVec_diagonal]

theorem eigenvalue_mem (he : Spec.RealParts eig) {c : Matrix (Fin n) (Fin n) ℝ} {μ : ℝ}
    (h : MatrixExp.Spec.Eigenvalue c μ) : μ ∈ eig n c := by
  have : μ ∈ (eig n c : Multiset ℝ) := by
    rw [he]
    refine Multiset.mem_map.2 ⟨(μ : ℂ), ?_, Complex.ofReal_re μ⟩
    rw [mem_roots (Polynomial.map_ne_zero (charpoly_monic c).ne_zero), IsRoot.def, eval_map_algebraMap]
    have := eigenvalue_charpoly h
    rw [IsRoot.def] at this
    have h2 := aeval_algebraMap_apply ℂ μ c.charpoly
    simp only [Complex.coe_algebraMap] at h2
    rw [h2, aeval_def]
    simp [this]
  simpa using this

theorem eig_length (he : Spec.RealParts eig) (c : Matrix (Fin n) (Fin n) ℝ) : (eig n c).length = n := by
  have : Multiset.card (eig n c : Multiset ℝ) = n := by
    rw [he, Multiset.card_map, ← Polynomial.Splits.natDegree_eq_card_roots (IsAlgClosed.splits _),
      natDegree_map, charpoly_natDegree_eq_dim, Fintype.card_fin]
  simpa using this

/-- The least squares problem has an exact solution. -/
theorem minimalPolynomial_zero (hs : Spec.LeastSquares solve) (hd : d = 1 ∨ d = 2 ∨ d = 4)
    {x : HermLmi.HMat d n ℝ} (hx : Hyper.Spec.Hermitian x) :
    ∑ i : Fin n, minimalPolynomial solve x i • lmat x ^ i.1 + lmat x ^ n = 0 := by
  have hD := dim_of_assoc hd
  have h0 : 0 < d := by omega
  have : Nonempty (Fin d) := ⟨⟨0, h0⟩⟩
  obtain ⟨p, hp, hn, h⟩ := annihilator ((HermLmi.hermitian_lmat hD x).1 hx) (Plain.rmat_units hd x)
    (n := n) (by simp)
  have hz : ∑ i : Fin n, p.coeff i • lmat x ^ i.1 + lmat x ^ n = 0 := by
    have hlead : p.coeff n = 1 := by
      have := hp.coeff_natDegree
      rwa [hn] at this
    rw [aeval_eq_sum_range, hn, sum_range_succ, hlead, one_smul] at h
    rw [← h, sum_range]
  rw [← combination_iff hd] at hz ⊢
  have key := hs d n (Matrix.of fun (q : Pos d n) (i : Fin n) => vect (power x i) q)
    (fun q => -vect (power x n) q) fun i => p.coeff i
  rw [hz, sub_self, zero_dotProduct] at key
  have := dotProduct_self_eq_zero.1 (le_antisymm key (Plain.dot_nonneg _))
  exact sub_eq_zero.1 this

theorem minimalPolynomial_root (hs : Spec.LeastSquares solve) (hd : d = 1 ∨ d = 2 ∨ d = 4)
    {x : HermLmi.HMat d n ℝ} (hx : Hyper.Spec.Hermitian x) {μ : ℝ} (hμ : HermLmi.Spec.Eigenvalue x μ) :
    ∑ i : Fin n, minimalPolynomial solve x i * μ ^ i.1 + μ ^ n = 0 := by
  have h := minimalPolynomial_zero hs hd hx
  obtain ⟨v, hv, e⟩ := (HermLmi.eigenvalue_lmat x μ).1 hμ
  have hpow : ∀ k, (lmat x ^ k) *ᵥ v = μ ^ k • v := by
    intro k
    induction k with
    | zero => simp
    | succ k ih => rw [pow_succ, ← mulVec_mulVec, e, mulVec_smul, ih, smul_smul, pow_succ, mul_comm]
  have := congrArg (fun Z => Z *ᵥ v) h
  simp only [add_mulVec, sum_mulVec, smul_mulVec, hpow, smul_smul, zero_mulVec, ← sum_smul,
    ← add_smul] at this
  rcases smul_eq_zero.1 this with h0 | h0
  · exact h0
  · exact absurd h0 hv

theorem eigenvalue_companion (hs : Spec.LeastSquares solve) (hd : d = 1 ∨ d = 2 ∨ d = 4)
    {x : HermLmi.HMat d n ℝ} (hx : Hyper.Spec.Hermitian x) (hn : 0 < n) {μ : ℝ}
    (hμ : HermLmi.Spec.Eigenvalue x μ) :
    MatrixExp.Spec.Eigenvalue (companion (minimalPolynomial solve x)) μ := by
  refine ⟨_, fun h0 => ?_, companion_mulVec (minimalPolynomial_root hs hd hx hμ)⟩
  have := congrFun h0 ⟨0, hn⟩
  simp at this

end Roots

section Solver

/-- Least squares with as many columns as the rank. -/
theorem exists_basic {ι : Type} [Fintype ι] {n : Nat} (M : Matrix ι (Fin n) ℝ) (b : ι → ℝ) :
    ∃ y : Fin n → ℝ, (∀ z, (M *ᵥ y - b) ⬝ᵥ (M *ᵥ y - b) ≤ (M *ᵥ z - b) ⬝ᵥ (M *ᵥ z - b)) ∧
      (univ.filter fun i => y i ≠ 0).card ≤ M.rank := by
  classical
  obtain ⟨t, ht, hsp, hli⟩ := exists_linearIndependent ℝ (Set.range M.col)
  have hfin : Finite t := (Set.finite_range M.col).subset ht
  let _ : Fintype t := Fintype.ofFinite t
  have hex : ∀ v : t, ∃ i, M.col i = v.1 := fun v => ht v.2
  choose a ha using hex
  have hinj : Function.Injective a := fun v w h => Subtype.ext (by rw [← ha, ← ha, h])
  let N : Matrix ι t ℝ := fun r v => v.1 r
  have hN : ∀ w, N *ᵥ w = ∑ v : t, w v • v.1 := by
    intro w
    funext r
    simp [mulVec, dotProduct, N, mul_comm]
  have hNi : Function.Injective N.mulVec := by
    intro w w' h
    rw [hN, hN] at h
    have := Fintype.linearIndependent_iff.1 hli (fun v => w v - w' v) (by
      simp only [sub_smul, sum_sub_distrib]
      rw [h, sub_self])
    funext v
    exact sub_eq_zero.1 (this v)
  have hG : IsUnit (Nᵀ * N) := by
    rw [← mulVec_injective_iff_isUnit]
    intro w w' h
    apply hNi
    have h1 : (N *ᵥ (w - w')) ⬝ᵥ (N *ᵥ (w - w')) = 0 := by
      have h2 : (Nᵀ * N) *ᵥ (w - w') = 0 := by rw [mulVec_sub, sub_eq_zero]; exact h
      have h3 : (N *ᵥ (w - w')) ⬝ᵥ (N *ᵥ (w - w')) = (w - w') ⬝ᵥ ((Nᵀ * N) *ᵥ (w - w')) := by
        rw [← mulVec_mulVec, dotProduct_mulVec (w - w'), vecMul_transpose]
      rw [h3, h2, dotProduct_zero]
    have h4 := dotProduct_self_eq_zero.1 h1
    rwa [mulVec_sub, sub_eq_zero] at h4
  let y0 : t → ℝ := (Nᵀ * N)⁻¹ *ᵥ (Nᵀ *ᵥ b)
  have hy0 : Nᵀ *ᵥ (N *ᵥ y0 - b) = 0 := by
    rw [mulVec_sub, mulVec_mulVec, mulVec_mulVec, Matrix.mul_nonsing_inv _ ((isUnit_iff_isUnit_det _).1 hG),
      one_mulVec, sub_self]
  have hmin : ∀ w, (N *ᵥ y0 - b) ⬝ᵥ (N *ᵥ y0 - b) ≤ (N *ᵥ w - b) ⬝ᵥ (N *ᵥ w - b) := by
    intro w
    have e : N *ᵥ w - b = N *ᵥ (w - y0) + (N *ᵥ y0 - b) := by
      rw [mulVec_sub]
      abel
    have h0 : (N *ᵥ (w - y0)) ⬝ᵥ (N *ᵥ y0 - b) = 0 := by
      rw [← vecMul_transpose, ← dotProduct_mulVec, hy0, dotProduct_zero]
    rw [e, add_dotProduct, dotProduct_add, dotProduct_add, h0, dotProduct_comm (N *ᵥ y0 - b) (N *ᵥ (w - y0)), h0]
    have := Plain.dot_nonneg (N *ᵥ (w - y0))
    linarith
  let y : Fin n → ℝ := fun i => ∑ v : t, if a v = i then y0 v else 0
  have hMy : M *ᵥ y = N *ᵥ y0 := by
    funext r
    simp only [mulVec, dotProduct, y, mul_sum]
    rw [sum_comm]
    refine sum_congr rfl fun v _ => ?_
    rw [sum_eq_single (a v)]
    · rw [if_pos rfl]
      have := congrFun (ha v) r
      simp only [Matrix.col_apply] at this
      rw [this]
    · intro i _ hi
      rw [if_neg fun h => hi h.symm, mul_zero]
    · simp
  refine ⟨y, fun z => ?_, ?_⟩
  · have hz : ∃ w, N *ᵥ w = M *ᵥ z := by
      have h1 : M *ᵥ z ∈ Submodule.span ℝ (Set.range M.col) := by
        rw [← Matrix.range_mulVecLin]
        exact ⟨z, rfl⟩
      have hr : (t : Set (ι → ℝ)) = Set.range fun v : t => v.1 := by simp
      rw [← hsp, hr, Submodule.mem_span_range_iff_exists_fun] at h1
      obtain ⟨w, hw⟩ := h1
      exact ⟨w, by rw [hN, hw]⟩
    obtain ⟨w, hw⟩ := hz
    rw [hMy, ← hw]
    exact hmin w
  · have h1 : (univ.filter fun i => y i ≠ 0) ⊆ univ.image a := by
      intro i hi
      have hi := (mem_filter.1 hi).2
      by_contra h
      refine hi (sum_eq_zero fun v _ => if_neg fun h' => h ?_)
      exact mem_image.2 ⟨v, mem_univ v, h'⟩
    refine (card_le_card h1).trans (card_image_le.trans ?_)
    rw [rank_eq_finrank_span_cols, ← hsp, finrank_span_set_eq_card hli, Set.toFinset_card, card_univ]

theorem exists_solver : ∃ solve : Solver ℝ, Spec.LeastSquares solve ∧ Spec.Basic solve := by
  have h := fun d n (M : Matrix (Pos d n) (Fin n) ℝ) b => exists_basic M b
  choose f h1 h2 using h
  exact ⟨f, h1, h2⟩

theorem exists_eig : ∃ eig : ∀ n : Nat, Matrix (Fin n) (Fin n) ℝ → List ℝ, Spec.RealParts eig :=
  ⟨fun _ c => ((c.charpoly.map (algebraMap ℝ ℂ)).roots.map Complex.re).toList, fun _ _ => by simp⟩

end Solver

end Verif.MinPoly
