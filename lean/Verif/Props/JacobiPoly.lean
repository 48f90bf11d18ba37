import Verif.Lemmas.JacobiPoly
import Verif.Props.PlainLanczos

/-!
# C80: eigenvalues of the Jacobi matrix

`EigenvaluesOfJacobiMatrix` runs the recurrence of `ApproximateEigenvalues` on polynomials.  For a
positive definite `W` and a symmetric `S` its results lie within the spectrum of `W S`; where the
recurrence on vectors does not stop early both give the same numbers, and after as many steps as `W S`
has rows these are the eigenvalues.  The real version has no early stop, so it gives NaN where the
recurrence on vectors stops.
-/

namespace Verif.JacobiPoly

open Matrix Lanczos SolveLoop.Spec MatrixExp.Spec Hyper Hyper.Spec HermLmi Plain.Spec

variable {ι : Type} [Fintype ι] [DecidableEq ι] {sqrt : ℝ → ℝ} {tri : List ℝ → List ℝ → List ℝ}

theorem triple {W S : Matrix ι ι ℝ} (hW : Wᵀ = W) (hS : Sᵀ = S) : W * S * W = W * (W * S)ᵀ := by
  rw [transpose_mul, hW, hS, Matrix.mul_assoc]

/-- A positive definite matrix for the examples. -/
def exW : Matrix (Fin 2) (Fin 2) ℝ := !![4, 0; 0, 1]

/-- A symmetric matrix for the examples. -/
def exS : Matrix (Fin 2) (Fin 2) ℝ := !![1, 1; 1, 1]

theorem exW_posDef : exW.PosDef := by
  have : exW = diagonal ![4, 1] := by
    ext i j
    fin_cases i <;> fin_cases j <;> rfl
  rw [this]
  refine Matrix.PosDef.diagonal fun i => ?_
  fin_cases i <;> simp

theorem exS_sym : exSᵀ = exS := by
  ext i j
  fin_cases i <;> fin_cases j <;> rfl

theorem exWS : exW * exS = !![4, 4; 1, 1] := by
  simp [exW, exS]

theorem ex_lanczos : Lanczos.lanczos Real.sqrt (exW * exS) exW ![1, 0] 2 = some ([4, 1], [2]) := by
  have h2 : Real.sqrt 4 = 2 := by
    rw [show (4 : ℝ) = 2 ^ 2 by norm_num, Real.sqrt_sq (by norm_num)]
  have e1 : exW *ᵥ ![1, 0] = ![4, 0] := by
    funext i
    fin_cases i <;> simp [exW, mulVec, dotProduct, Fin.sum_univ_two]
  have e2 : (![4, 0] : Fin 2 → ℝ) ⬝ᵥ ![1, 0] = 4 := by simp
  have e3 : (fun i => (![4, 0] : Fin 2 → ℝ) i / 2) = ![2, 0] := by
    funext i
    fin_cases i <;> norm_num
  have e4 : (fun i => (![1, 0] : Fin 2 → ℝ) i / 2) = ![1 / 2, 0] := by
    funext i
    fin_cases i <;> norm_num
  have e5 : !![4, 4; 1, 1] *ᵥ (![2, 0] : Fin 2 → ℝ) = ![8, 2] := by
    funext i
    fin_cases i <;> norm_num
  have e6 : !![4, 4; 1, 1]ᵀ *ᵥ (![1 / 2, 0] : Fin 2 → ℝ) = ![2, 2] := by
    funext i
    fin_cases i <;> norm_num [mulVec, dotProduct, Fin.sum_univ_two]
  have e7 : (![2, 0] : Fin 2 → ℝ) ⬝ᵥ ![2, 2] = 4 := by norm_num
  have e8 : (![8, 2] - (4 : ℝ) • ![2, 0] : Fin 2 → ℝ) = ![0, 2] := by
    funext i
    fin_cases i <;> norm_num
  have e9 : (![2, 2] - (4 : ℝ) • ![1 / 2, 0] : Fin 2 → ℝ) = ![0, 2] := by
    funext i
    fin_cases i <;> norm_num
  have e10 : (![0, 2] : Fin 2 → ℝ) ⬝ᵥ ![0, 2] = 4 := by norm_num
  have e11 : (fun i => (![0, 2] : Fin 2 → ℝ) i / 2) = ![0, 1] := by
    funext i
    fin_cases i <;> norm_num
  have e12 : !![4, 4; 1, 1]ᵀ *ᵥ (![0, 1] : Fin 2 → ℝ) = ![1, 1] := by
    funext i
    fin_cases i <;> norm_num [mulVec, dotProduct, Fin.sum_univ_two]
  have e13 : (![0, 1] : Fin 2 → ℝ) ⬝ᵥ ![1, 1] = 1 := by norm_num
  unfold Lanczos.lanczos
  simp only [exWS, Lanczos.inner, Lanczos.divBy, Lanczos.apply, Lanczos.subSmul, e1, e2, h2, e3, e4, e5,
    e6, e7, e8, e9]
  simp only [Lanczos.loop, Lanczos.inner, Lanczos.divBy, Lanczos.apply, e10, h2, e11, e12, e13]
  norm_num

/-- **C80, agreement**: where the recurrence on vectors makes all its steps, the one on polynomials
(`compressed = false`) gives the same results. -/
theorem C80_agree (W S : Matrix ι ι ℝ) (hW : Wᵀ = W) (hS : Sᵀ = S) (r : ι → ℝ) (n : Nat) (hn : 0 < n)
    (q : List ℝ × List ℝ) (h : Lanczos.lanczos sqrt (W * S) W r n = some q)
    (hq : q.2.length + 1 = n) :
    eigenvalues sqrt tri (W * S) W r n = .ok (some (tri q.1 q.2)) := by
  have hc := triple hW hS
  unfold eigenvalues
  rw [run_agree (ip_comm hW) (innerReal_represents hW hc r) hc hn (lanczos_result h) hq]
  rfl

/-- The hypotheses hold for matrices that do not commute. -/
example : exWᵀ = exW ∧ exSᵀ = exS ∧
    Lanczos.lanczos Real.sqrt (exW * exS) exW ![1, 0] 2 = some ([4, 1], [2]) :=
  ⟨Lmi.transpose_of_posDef exW_posDef, exS_sym, ex_lanczos⟩

theorem ex_run : eigenvalues Real.sqrt Plain.exTri (exW * exS) exW ![1, 0] 2 =
    .ok (some (Plain.exTri [4, 1] [2])) :=
  C80_agree (sqrt := Real.sqrt) (tri := Plain.exTri) exW exS (Lmi.transpose_of_posDef exW_posDef) exS_sym
    ![1, 0] 2 (by decide) ([4, 1], [2]) ex_lanczos (by simp)

/-- **C80, bounds**: all results lie between the bounds of the spectrum. -/
theorem C80_within (hsq : ∀ x, 0 < x → SqrtAt sqrt x) (htri : Lmi.Spec.TriEigenvalues tri)
    (W S : Matrix ι ι ℝ) (hW : W.PosDef) (hS : Sᵀ = S) (lo hi : ℝ)
    (hb : ∀ μ, Eigenvalue (W * S) μ → lo ≤ μ ∧ μ ≤ hi) (r : ι → ℝ) (n : Nat) (l : List ℝ)
    (h : eigenvalues sqrt tri (W * S) W r n = .ok (some l)) : ∀ t ∈ l, lo ≤ t ∧ t ≤ hi := by
  obtain ⟨q, hq, rfl⟩ := bind_some h
  have hWt := Lmi.transpose_of_posDef hW
  have hc := triple hWt hS
  exact (Lmi.result_bounds hsq htri hW hS hb
    (run_result (ip_comm hWt) (innerReal_represents hWt hc r) hc hq).1).2

/-- The hypotheses hold for matrices that do not commute. -/
example : exW.PosDef ∧ exSᵀ = exS ∧ eigenvalues Real.sqrt Plain.exTri (exW * exS) exW ![1, 0] 2 =
    .ok (some (Plain.exTri [4, 1] [2])) := ⟨exW_posDef, exS_sym, ex_run⟩

/-- **C80, exactness**: after as many steps as the matrix has rows the results are the eigenvalues. -/
theorem C80_exact (hsq : ∀ x, 0 < x → SqrtAt sqrt x) (htri : AllEigenvalues tri)
    (W S : Matrix ι ι ℝ) (hW : Wᵀ = W) (hS : Sᵀ = S) (r : ι → ℝ) (l : List ℝ)
    (h : eigenvalues sqrt tri (W * S) W r (Fintype.card ι) = .ok (some l)) (t : ℝ) :
    t ∈ l ↔ Eigenvalue (W * S) t := by
  obtain ⟨q, hq, rfl⟩ := bind_some h
  have hc := triple hW hS
  obtain ⟨h1, h2⟩ := run_result (ip_comm hW) (innerReal_represents hW hc r) hc hq
  obtain ⟨h3, h4⟩ := result_exact hsq hW hS h1 h2 t
  rw [htri _ _ h3, h4]

/-- The hypothesis holds for a matrix with two rows, and 5 is a result. -/
example : eigenvalues Real.sqrt Plain.exTri (exW * exS) exW ![1, 0] (Fintype.card (Fin 2)) =
      .ok (some (Plain.exTri [4, 1] [2])) ∧ Eigenvalue (exW * exS) 5 := by
  refine ⟨ex_run, ![4, 1], ?_, ?_⟩
  · intro e
    have := congrFun e 1
    simp at this
  · rw [exWS]
    funext i
    fin_cases i <;> norm_num

/-- **C80, exactness of the recurrence on vectors**: `AsymmetricLanczos` gives all eigenvalues after as
many steps as the matrix has rows, if it does not stop early. -/
theorem C80_compressed_exact (hsq : ∀ x, 0 < x → SqrtAt sqrt x) (htri : AllEigenvalues tri)
    (W S : Matrix ι ι ℝ) (hW : Wᵀ = W) (hS : Sᵀ = S) (r : ι → ℝ) (q : List ℝ × List ℝ)
    (h : Lanczos.lanczos sqrt (W * S) W r (Fintype.card ι) = some q)
    (hq : q.1.length = Fintype.card ι) (t : ℝ) : t ∈ tri q.1 q.2 ↔ Eigenvalue (W * S) t := by
  obtain ⟨v, a, b, hl, -⟩ := lanczos_chain hsq (triple hW hS) (lanczos_result h)
  obtain ⟨h3, h4⟩ := result_exact hsq hW hS (lanczos_result h) (by omega) t
  rw [htri _ _ h3, h4]

/-- The hypotheses hold for a matrix with two rows. -/
example : Lanczos.lanczos Real.sqrt (exW * exS) exW ![1, 0] (Fintype.card (Fin 2)) =
    some ([4, 1], [2]) ∧ ([4, 1] : List ℝ).length = Fintype.card (Fin 2) := ⟨ex_lanczos, rfl⟩

/-- **C80 is violated**: `W` is positive definite and the start vector is not zero, and the results
for `compressed = false` are NaN, while `compressed = true` stops and gives the eigenvalue. -/
theorem C80_defined_violated :
    (1 : Matrix (Fin 2) (Fin 2) ℝ).PosDef ∧ (![1, 0] : Fin 2 → ℝ) ≠ 0 ∧
      approxEigenvalues Real.sqrt Plain.exTri (1 * 1 : Matrix (Fin 2) (Fin 2) ℝ) 1 ![1, 0] 2 =
        .ok none ∧
      Lanczos.lanczos Real.sqrt (1 * 1 : Matrix (Fin 2) (Fin 2) ℝ) 1 ![1, 0] 2 = some ([1], []) := by
  have hB := innerReal_represents (A := (1 * 1 : Matrix (Fin 2) (Fin 2) ℝ)) (W := 1) (by simp) (by simp)
    ![1, 0]
  refine ⟨Matrix.PosDef.one, ?_, ?_, ?_⟩
  · intro e
    have := congrFun e 0
    simp at this
  · unfold approxEigenvalues
    rw [if_neg (by decide)]
    unfold eigenvalues
    cases hq : run (innerReal (1 * 1 : Matrix (Fin 2) (Fin 2) ℝ) 1 ![1, 0]) Real.sqrt 2 with
    | ok o =>
      cases o with
      | none => rfl
      | some q =>
        obtain ⟨h1, h2⟩ := run_result (ip_comm (by simp)) hB (by simp) hq
        rw [Matrix.one_mul] at h1
        have hs : ∀ x : ℝ, 0 ≤ x → SqrtAt Real.sqrt x := Plain.exSqrt
        obtain ⟨v, a, b, ⟨s, h0⟩, -, h3, -⟩ := lanczos_chain_start (fun x hx => hs x hx.le) (by simp) h1
        have h4 := h3.first (by omega)
        have h5 := h3.norm 1 (by omega)
        have h6 := h3.diag 0 (by omega)
        simp only [transpose_one, one_mulVec] at h4 h6
        rw [h6, h3.norm 0 (by omega), one_smul, sub_self] at h4
        rcases smul_eq_zero.1 h4 with h7 | h7
        · exact absurd h7 (h3.ne 0 (by omega))
        · rw [h7] at h5
          simp [ip] at h5
    | throws =>
      unfold run at hq
      simp only [if_neg (two_ne_zero : (2 : Nat) ≠ 0)] at hq
      split_ifs at hq
    | ub =>
      unfold run at hq
      simp only [if_neg (two_ne_zero : (2 : Nat) ≠ 0)] at hq
      split_ifs at hq
    | diverges =>
      unfold run at hq
      simp only [if_neg (two_ne_zero : (2 : Nat) ≠ 0)] at hq
      split_ifs at hq
  · have e1 : (fun i => (![1, 0] : Fin 2 → ℝ) i / 1) = ![1, 0] := by
      funext i
      simp
    have e4 : (![1, 0] : Fin 2 → ℝ) ⬝ᵥ ![1, 0] = 1 := by simp [dotProduct, Fin.sum_univ_two]
    rw [Matrix.one_mul]
    unfold Lanczos.lanczos
    simp only [Lanczos.inner, Lanczos.apply, Lanczos.divBy, Lanczos.subSmul, one_mulVec, e4,
      Real.sqrt_one, e1, transpose_one, one_smul, sub_self]
    simp [Lanczos.loop, Lanczos.inner]

section Hyper

variable {d m : Nat} [NeZero d]

/-- **C80, hypercomplex matrices**: for real, complex and quaternion matrices, `W` positive definite and
`S` Hermitian, there are results for every positive number of steps, and they lie between the bounds of
the spectrum of `W S`. -/
theorem C80_hyper (hd : d = 1 ∨ d = 2 ∨ d = 4) (hsq : ∀ x, 0 < x → SqrtAt sqrt x)
    (htri : Lmi.Spec.TriEigenvalues tri) (W S : HMat d m ℝ) (hW : HermLmi.Spec.PosDef W)
    (hS : Hyper.Spec.Hermitian S) (hm : 0 < m) (lo hi : ℝ)
    (hb : ∀ μ, HermLmi.Spec.Eigenvalue (multiply W S) μ → lo ≤ μ ∧ μ ≤ hi) (n : Nat) (hn : 0 < n) :
    ∃ l, eigenvaluesH sqrt tri (multiply W S) W n = .ok (some l) ∧ l ≠ [] ∧
      ∀ t ∈ l, lo ≤ t ∧ t ≤ hi := by
  have hD := dim_of_assoc hd
  have hWp := (posDef_lmat hD W).1 hW
  have hWt := Lmi.transpose_of_posDef hWp
  have hSt := (hermitian_lmat hD S).1 hS
  have hd0 : (0 : ℝ) < d := Nat.cast_pos.2 (Nat.pos_of_ne_zero (NeZero.ne d))
  have hB := innerHyper_represents (R := ℝ) hd (A := multiply W S) hWt
    (by rw [lmat_multiply hd]; exact triple hWt hSt)
  set W' := (d : ℝ)⁻¹ • lift (lmat W) with hW'
  set S' := (d : ℝ) • lift (lmat S) with hS'
  have hp : W'.PosDef := (lift_posDef hWp).smul (inv_pos.2 hd0)
  have hWt' := Lmi.transpose_of_posDef hp
  have hSt' : S'ᵀ = S' := by rw [hS', transpose_smul, lift_transpose, hSt]
  have hA : lift (lmat (multiply W S)) = W' * S' := by
    rw [lmat_multiply hd, lift_mul, hW', hS', smul_mul_assoc, mul_smul_comm, smul_smul,
      inv_mul_cancel₀ hd0.ne', one_smul]
  rw [hA] at hB
  have hpos : 0 < innerHyper (multiply W S) W n one n one := by
    rw [hB _ _ _ _ hn hn, ev_one hn]
    have h1 := (Matrix.posDef_iff_dotProduct_mulVec.1 hp).2 (x := vec (1 : Matrix (Fin d × Fin m) _ ℝ))
      (fun e => by
        have := congrFun e ((⟨0, Nat.pos_of_ne_zero (NeZero.ne d)⟩, ⟨0, hm⟩),
          (⟨0, Nat.pos_of_ne_zero (NeZero.ne d)⟩, ⟨0, hm⟩))
        simp [vec] at this)
    rw [star_trivial, dotProduct_comm] at h1
    exact h1
  have hrun : ∃ q, runH (innerHyper (multiply W S) W) sqrt n = .ok (some q) := by
    unfold runH
    simp only [if_neg hn.ne', if_neg (not_le.2 hpos)]
    exact ⟨_, rfl⟩
  obtain ⟨q, hq⟩ := hrun
  have hr := runH_result (ip_comm hWt') hB (triple hWt' hSt') hq
  obtain ⟨h1, h2⟩ := Lmi.result_bounds hsq htri hp hSt' (lo := lo) (hi := hi) (fun μ hμ => by
    rw [← hA] at hμ
    exact hb μ ((eigenvalue_lmat _ _).2 (eigenvalue_lift hμ))) hr
  exact ⟨_, by unfold eigenvaluesH; rw [hq]; rfl, h1, h2⟩

/-- The hypotheses hold for the identity and a complex matrix with two rows. -/
example : HermLmi.Spec.PosDef (identity 2 : HMat 2 2 ℝ) ∧ Hyper.Spec.Hermitian Plain.exH := by
  refine ⟨?_, Plain.exH_herm⟩
  rw [posDef_lmat (.inr (.inl rfl)), lmat_identity (.inr (.inl rfl))]
  exact Matrix.PosDef.one

end Hyper

end Verif.JacobiPoly
