import Mathlib.Analysis.Matrix.Spectrum
import Mathlib.LinearAlgebra.Matrix.PosDef
import Mathlib.Data.Real.StarOrdered
import Verif.Spec.Lmi
import Verif.Lemmas.MatrixExp
import Verif.Lemmas.Lanczos
import Verif.Model.Solve

/-!
# Lemmas on linear matrix inequalities
-/

namespace Verif.Lmi

open Matrix MatrixExp

variable {n : Nat} {ι : Type} [Fintype ι] [DecidableEq ι]

/-- A symmetric matrix is diagonal in an orthonormal basis. -/
theorem exists_spectral {A : Matrix ι ι ℝ} (h : Aᵀ = A) :
    ∃ (U : Matrix ι ι ℝ) (d : ι → ℝ), U * Uᵀ = 1 ∧ Uᵀ * U = 1 ∧ A = U * diagonal d * Uᵀ := by
  have hh : A.IsHermitian := by
    rw [Matrix.IsHermitian, conjTranspose_eq_transpose_of_trivial, h]
  refine ⟨hh.eigenvectorUnitary, hh.eigenvalues, ?_, ?_, ?_⟩
  · have := Unitary.coe_mul_star_self hh.eigenvectorUnitary
    rwa [Unitary.coe_star, star_eq_conjTranspose, conjTranspose_eq_transpose_of_trivial] at this
  · have := Unitary.coe_star_mul_self hh.eigenvectorUnitary
    rwa [star_eq_conjTranspose, conjTranspose_eq_transpose_of_trivial] at this
  · have := hh.spectral_theorem
    rw [Unitary.conjStarAlgAut_apply, star_eq_conjTranspose,
      conjTranspose_eq_transpose_of_trivial] at this
    exact this

/-- The common basis of a positive definite and a symmetric matrix. -/
theorem exists_basis {W S : Matrix ι ι ℝ} (hW : W.PosDef) (hS : Sᵀ = S) :
    ∃ (V : Matrix ι ι ℝ) (d : ι → ℝ), IsUnit V ∧ W = V * Vᵀ ∧ W * S * V = V * diagonal d := by
  have hWt : Wᵀ = W := by
    have := hW.1
    rwa [Matrix.IsHermitian, conjTranspose_eq_transpose_of_trivial] at this
  obtain ⟨U, l, h1, h2, h3⟩ := exists_spectral hWt
  have hU : IsUnit U := isUnit_iff_exists.2 ⟨Uᵀ, h1, h2⟩
  have hl : ∀ i, 0 < l i := by
    have : (diagonal l).PosDef := by
      have e : U * diagonal l * star U = W := by
        rw [star_eq_conjTranspose, conjTranspose_eq_transpose_of_trivial, ← h3]
      rw [← Matrix.IsUnit.posDef_star_right_conjugate_iff hU, e]
      exact hW
    exact Matrix.posDef_diagonal_iff.1 this
  let Q : Matrix ι ι ℝ := U * diagonal fun i => Real.sqrt (l i)
  have hQ : IsUnit Q := by
    refine hU.mul (isUnit_iff_exists.2 ⟨diagonal fun i => (Real.sqrt (l i))⁻¹, ?_, ?_⟩) <;>
    · rw [diagonal_mul_diagonal, ← diagonal_one]
      congr 1
      funext i
      have := Real.sqrt_pos.2 (hl i)
      field_simp
  have hQW : Q * Qᵀ = W := by
    rw [h3]
    simp only [Q, transpose_mul, diagonal_transpose, Matrix.mul_assoc]
    congr 1
    rw [← Matrix.mul_assoc, diagonal_mul_diagonal]
    congr 2
    funext i
    exact Real.mul_self_sqrt (hl i).le
  have hM : (Qᵀ * S * Q)ᵀ = Qᵀ * S * Q := by
    simp only [transpose_mul, transpose_transpose, hS, Matrix.mul_assoc]
  obtain ⟨P, d, p1, p2, p3⟩ := exists_spectral hM
  refine ⟨Q * P, d, hQ.mul (isUnit_iff_exists.2 ⟨Pᵀ, p1, p2⟩), ?_, ?_⟩
  · rw [transpose_mul, Matrix.mul_assoc, ← Matrix.mul_assoc P, p1, Matrix.one_mul, hQW]
  · have : Qᵀ * S * Q * P = P * diagonal d := by
      rw [p3, Matrix.mul_assoc, p2, Matrix.mul_one]
    rw [← hQW, Matrix.mul_assoc Q P, ← this]
    simp only [Matrix.mul_assoc]

section Conj

variable {R : Type} [Field R]

/-- The eigenvalues of a diagonalised matrix. -/
theorem eigenvalue_iff {A V : Matrix ι ι R} {l : ι → R} (hV : IsUnit V) (h : A * V = V * diagonal l)
    (μ : R) : Spec.Eigenvalue A μ ↔ ∃ i, l i = μ := by
  obtain ⟨B, h1, h2⟩ := isUnit_iff_exists.1 hV
  constructor
  · rintro ⟨v, hv, he⟩
    by_contra hn
    push Not at hn
    have hd : diagonal l *ᵥ (B *ᵥ v) = μ • (B *ᵥ v) := by
      have : diagonal l * B = B * A := by
        calc diagonal l * B = B * V * diagonal l * B := by rw [h2, Matrix.one_mul]
          _ = B * (V * diagonal l) * B := by simp only [Matrix.mul_assoc]
          _ = B * (A * V) * B := by rw [h]
          _ = B * A * (V * B) := by simp only [Matrix.mul_assoc]
          _ = B * A := by rw [h1, Matrix.mul_one]
      rw [mulVec_mulVec, this, ← mulVec_mulVec, he, mulVec_smul]
    have h0 : B *ᵥ v = 0 := by
      funext i
      have := congrFun hd i
      rw [mulVec_diagonal, Pi.smul_apply, smul_eq_mul] at this
      have h' : (l i - μ) * (B *ᵥ v) i = 0 := by rw [sub_mul, this, sub_self]
      exact (mul_eq_zero.1 h').resolve_left (sub_ne_zero.2 (hn i))
    refine hv ?_
    rw [← one_mulVec v, ← h1, ← mulVec_mulVec, h0, mulVec_zero]
  · rintro ⟨i, rfl⟩
    refine ⟨V *ᵥ Pi.single i 1, ?_, ?_⟩
    · intro h0
      have : (Pi.single i 1 : ι → R) = 0 := by
        rw [← one_mulVec (Pi.single i 1), ← h2, ← mulVec_mulVec, h0, mulVec_zero]
      have := congrFun this i
      simp at this
    · rw [mulVec_mulVec, h, ← mulVec_mulVec, ← mulVec_smul]
      congr 1
      funext j
      rw [mulVec_diagonal]
      by_cases hj : j = i
      · subst hj
        simp
      · simp [hj]

theorem isUnit_denom {A V : Matrix ι ι R} {l : ι → R} (hV : IsUnit V)
    (h : A * V = V * diagonal l) (hp : ∀ i, Spec.p (-l i) ≠ 0) : IsUnit (denom A).det := by
  have hD : IsUnit (denom (diagonal l)) := by
    rw [denom_diagonal, Matrix.isUnit_iff_isUnit_det, det_diagonal]
    exact isUnit_iff_ne_zero.2 (Finset.prod_ne_zero_iff.2 fun i _ => hp i)
  rw [← Matrix.isUnit_iff_isUnit_det]
  have e := denom_intertwine h
  obtain ⟨B, h1, h2⟩ := isUnit_iff_exists.1 hV
  have : denom A = V * denom (diagonal l) * B := by
    rw [← e, Matrix.mul_assoc, h1, Matrix.mul_one]
  rw [this]
  exact (hV.mul hD).mul (isUnit_iff_exists.2 ⟨V, h2, h1⟩)

theorem pade_conj {solve : Matrix ι ι R → Matrix ι ι R → Matrix ι ι R} (hs : Spec.Solves solve) {A V : Matrix ι ι R}
    {l : ι → R} (hV : IsUnit V) (h : A * V = V * diagonal l) (hp : ∀ i, Spec.p (-l i) ≠ 0) :
    pade solve A * V = V * diagonal fun i => Spec.p (l i) / Spec.p (-l i) := by
  have hD : IsUnit (denom (diagonal l)).det := by
    rw [denom_diagonal, det_diagonal]
    exact isUnit_iff_ne_zero.2 (Finset.prod_ne_zero_iff.2 fun i _ => hp i)
  rw [pade_intertwine hs (isUnit_denom hV h hp) hD h]
  congr 1
  refine cancel hD ?_
  rw [pade, hs _ _ hD, numer_diagonal, denom_diagonal, diagonal_mul_diagonal]
  congr 1
  funext i
  have := hp i
  field_simp

end Conj

/-- A congruence of a diagonal matrix is positive definite exactly if the diagonal is positive. -/
theorem posDef_conj {V : Matrix ι ι ℝ} (hV : IsUnit V) (l : ι → ℝ) :
    (V * diagonal l * Vᵀ).PosDef ↔ ∀ i, 0 < l i := by
  have := Matrix.IsUnit.posDef_star_right_conjugate_iff hV (x := diagonal l)
  rw [star_eq_conjTranspose, conjTranspose_eq_transpose_of_trivial] at this
  rw [this, Matrix.posDef_diagonal_iff]

section Update

variable {R : Type} [Field R] [LinearOrder R]

theorem geodesicUpdate_W (solve : Mat n R → Mat n R → Mat n R) (scale e : R) (w : Ws n R) :
    (geodesicUpdate solve scale e w).W =
      (1 / 2 : R) • (pade solve (scale • (w.t1 + e • 1)) * w.W +
        (pade solve (scale • (w.t1 + e • 1)) * w.W)ᵀ) := by
  unfold geodesicUpdate
  by_cases h : scale = 1
  · simp [h]
  · simp [h]

/-- The matrix whose exponential is taken satisfies `A W = W Aᵀ`. -/
theorem step_intertwine {W S : Matrix ι ι R} (hW : Wᵀ = W) (hS : Sᵀ = S) (scale e : R) :
    scale • (W * S + e • 1) * W = W * (scale • (W * S + e • 1))ᵀ := by
  rw [transpose_smul, transpose_add, transpose_mul, transpose_smul, transpose_one, hW, hS]
  simp only [Matrix.smul_mul, Matrix.mul_smul, Matrix.add_mul, Matrix.mul_add, Matrix.one_mul,
    Matrix.mul_one, Matrix.mul_assoc]

theorem step_conj {W S V : Matrix ι ι R} {d : ι → R} (h : W * S * V = V * diagonal d) (scale e : R) :
    scale • (W * S + e • 1) * V = V * diagonal fun i => scale * (d i + e) := by
  have : (diagonal fun i => scale * (d i + e)) = scale • (diagonal d + e • (1 : Matrix ι ι R)) := by
    ext i j
    by_cases hij : i = j
    · subst hij
      simp
    · simp [hij]
  rw [this]
  simp only [Matrix.smul_mul, Matrix.mul_smul, Matrix.add_mul, Matrix.mul_add, Matrix.one_mul,
    Matrix.mul_one, h]

/-- For symmetric data the symmetrisation changes nothing. -/
theorem geodesicUpdate_exact [IsStrictOrderedRing R] {solve : Mat n R → Mat n R → Mat n R}
    (hs : Spec.Solves solve) {W S : Mat n R} (hW : Wᵀ = W) (hS : Sᵀ = S) (scale e : R)
    (hd : IsUnit (denom (scale • (W * S + e • 1))).det) :
    (geodesicUpdate solve scale e ⟨W, W * S⟩).W = pade solve (scale • (W * S + e • 1)) * W := by
  rw [geodesicUpdate_W]
  have hdt : IsUnit (denom (scale • (W * S + e • 1))ᵀ).det := by
    rwa [denom_transpose, Matrix.det_transpose]
  have : (pade solve (scale • (W * S + e • 1)) * W)ᵀ = pade solve (scale • (W * S + e • 1)) * W := by
    rw [transpose_mul, hW, ← pade_transpose hs hd,
      pade_intertwine hs hd hdt (step_intertwine hW hS scale e)]
  simp only [this, ← two_smul R, smul_smul]
  norm_num

end Update

/-- The updated scaling point in the common basis. -/
theorem geodesicUpdate_conj {solve : Mat n ℝ → Mat n ℝ → Mat n ℝ} (hs : Spec.Solves solve)
    {W S V : Mat n ℝ} {d : Fin n → ℝ} (hS : Sᵀ = S) (hV : IsUnit V)
    (hVW : W = V * Vᵀ) (h : W * S * V = V * diagonal d) (scale e : ℝ)
    (hp : ∀ i, Spec.p (-(scale * (d i + e))) ≠ 0) :
    (geodesicUpdate solve scale e ⟨W, W * S⟩).W =
      V * (diagonal fun i => Spec.p (scale * (d i + e)) / Spec.p (-(scale * (d i + e)))) * Vᵀ := by
  have hW : Wᵀ = W := by rw [hVW, transpose_mul, transpose_transpose]
  have hc := step_conj h scale e
  rw [geodesicUpdate_exact hs hW hS scale e (isUnit_denom hV hc hp)]
  rw [← pade_conj hs hV hc hp, Matrix.mul_assoc, ← hVW]

theorem transpose_of_posDef {W : Matrix ι ι ℝ} (hW : W.PosDef) : Wᵀ = W := by
  have := hW.1
  rwa [Matrix.IsHermitian, conjTranspose_eq_transpose_of_trivial] at this

/-- Rayleigh quotients in the common basis. -/
theorem rayleigh {W S V : Matrix ι ι ℝ} {d : ι → ℝ} (hWt : Wᵀ = W) (hS : Sᵀ = S)
    (hVW : W = V * Vᵀ) (h : W * S * V = V * diagonal d) (z : ι → ℝ) :
    Lanczos.ip W z z = ∑ i, (Vᵀ *ᵥ z) i ^ 2 ∧
      Lanczos.ip W z ((W * S)ᵀ *ᵥ z) = ∑ i, d i * (Vᵀ *ᵥ z) i ^ 2 := by
  have e1 : ∀ y : ι → ℝ, W *ᵥ y = V *ᵥ (Vᵀ *ᵥ y) := fun y => by rw [mulVec_mulVec, ← hVW]
  have e2 : W * S * W = V * diagonal d * Vᵀ := by
    calc W * S * W = W * S * (V * Vᵀ) := by rw [← hVW]
      _ = V * diagonal d * Vᵀ := by rw [← Matrix.mul_assoc, h]
  have e3 : ∀ x y : ι → ℝ, (V *ᵥ x) ⬝ᵥ y = x ⬝ᵥ (Vᵀ *ᵥ y) := by
    intro x y
    rw [dotProduct_comm, dotProduct_mulVec, ← mulVec_transpose, dotProduct_comm]
  constructor
  · unfold Lanczos.ip
    rw [e1, e3]
    simp only [dotProduct, pow_two]
  · have : Lanczos.ip W z ((W * S)ᵀ *ᵥ z) = z ⬝ᵥ ((W * S * W) *ᵥ z) := by
      unfold Lanczos.ip
      rw [← mulVec_mulVec, ← mulVec_mulVec, dotProduct_mulVec z W, ← mulVec_transpose, hWt,
        transpose_mul, hWt, hS, mulVec_mulVec]
    rw [this, e2, ← mulVec_mulVec, ← mulVec_mulVec, dotProduct_comm, e3]
    simp only [dotProduct, mulVec_diagonal]
    exact Finset.sum_congr rfl fun i _ => by ring

/-- Values between which the spectrum lies bound the Rayleigh quotients. -/
theorem rayleigh_bounds {W S : Matrix ι ι ℝ} (hW : W.PosDef) (hS : Sᵀ = S) {lo hi : ℝ}
    (hb : ∀ μ, MatrixExp.Spec.Eigenvalue (W * S) μ → lo ≤ μ ∧ μ ≤ hi) {z : ι → ℝ} {t : ℝ}
    (hz : 0 < Lanczos.ip W z z) (ht : Lanczos.ip W z ((W * S)ᵀ *ᵥ z) = t * Lanczos.ip W z z) :
    lo ≤ t ∧ t ≤ hi := by
  obtain ⟨V, d, hV, hVW, hd⟩ := exists_basis hW hS
  have hb' : ∀ i, lo ≤ d i ∧ d i ≤ hi := fun i => hb _ ((eigenvalue_iff hV hd _).2 ⟨i, rfl⟩)
  obtain ⟨e1, e2⟩ := rayleigh (transpose_of_posDef hW) hS hVW hd z
  have h1 : lo * Lanczos.ip W z z ≤ t * Lanczos.ip W z z := by
    rw [← ht, e1, e2, Finset.mul_sum]
    exact Finset.sum_le_sum fun i _ => mul_le_mul_of_nonneg_right (hb' i).1 (sq_nonneg _)
  have h2 : t * Lanczos.ip W z z ≤ hi * Lanczos.ip W z z := by
    rw [← ht, e1, e2, Finset.mul_sum]
    exact Finset.sum_le_sum fun i _ => mul_le_mul_of_nonneg_right (hb' i).2 (sq_nonneg _)
  exact ⟨le_of_mul_le_mul_right h1 hz, le_of_mul_le_mul_right h2 hz⟩

/-- Eigenvalues of a tridiagonal matrix that the recurrence produces lie between the bounds of the
spectrum. -/
theorem result_bounds {sqrt : ℝ → ℝ} (hsq : ∀ x, 0 < x → SolveLoop.Spec.SqrtAt sqrt x)
    {tri : List ℝ → List ℝ → List ℝ} (htri : Lmi.Spec.TriEigenvalues tri) {W S : Matrix ι ι ℝ}
    (hW : W.PosDef) (hS : Sᵀ = S) {lo hi : ℝ}
    (hb : ∀ μ, MatrixExp.Spec.Eigenvalue (W * S) μ → lo ≤ μ ∧ μ ≤ hi) {r : ι → ℝ}
    {q : List ℝ × List ℝ} (h : Lanczos.Result sqrt (W * S) W r q) :
    tri q.1 q.2 ≠ [] ∧ ∀ t ∈ tri q.1 q.2, lo ≤ t ∧ t ≤ hi := by
  have hWt := transpose_of_posDef hW
  have hc : W * S * W = W * (W * S)ᵀ := by
    rw [transpose_mul, hWt, hS, Matrix.mul_assoc]
  obtain ⟨v, a, b, hl, hch, ha, hbb⟩ := Lanczos.lanczos_chain hsq hc h
  have hne : q.1 ≠ [] := by
    intro h0
    rw [h0] at hl
    simp at hl
  refine ⟨(htri _ _ hne hl).1, fun t ht => ?_⟩
  obtain ⟨z, hz, hzt⟩ := hch.ritz (Lanczos.ip_comm hWt) (Lanczos.ip_adjoint hWt hS) hl ha hbb
    ((htri _ _ hne hl).2 t ht)
  exact rayleigh_bounds hW hS hb hz hzt

/-- The approximate eigenvalues lie between the bounds of the spectrum. -/
theorem approx_bounds {sqrt : ℝ → ℝ} (hsq : ∀ x, 0 < x → SolveLoop.Spec.SqrtAt sqrt x)
    {tri : List ℝ → List ℝ → List ℝ} (htri : Lmi.Spec.TriEigenvalues tri) {W S : Mat n ℝ}
    (hW : W.PosDef) (hS : Sᵀ = S) {lo hi : ℝ}
    (hb : ∀ μ, MatrixExp.Spec.Eigenvalue (W * S) μ → lo ≤ μ ∧ μ ≤ hi) {r : Fin n → ℝ} {iters : Nat}
    {l : List ℝ} (h : Lanczos.approxEigenvalues sqrt tri (W * S) W r iters = some l) :
    ∀ t ∈ l, lo ≤ t ∧ t ≤ hi := by
  intro t ht
  unfold Lanczos.approxEigenvalues at h
  split_ifs at h with h1
  · subst h1
    obtain rfl := Option.some.inj h
    simp only [List.mem_map, List.mem_finRange, true_and] at ht
    obtain ⟨i, rfl⟩ := ht
    obtain rfl := Subsingleton.elim i 0
    refine hb _ ⟨fun _ => 1, fun h0 => one_ne_zero (congrFun h0 0), ?_⟩
    funext j
    obtain rfl := Subsingleton.elim j 0
    simp [mulVec, dotProduct]
  · simp only [Option.map_eq_some_iff] at h
    obtain ⟨q, hq, rfl⟩ := h
    exact (result_bounds hsq htri hW hS hb (Lanczos.lanczos_result hq)).2 t ht

/-- The form `A ↦ tr (A W A W)` is definite. -/
theorem trace_congruence {W A : Matrix ι ι ℝ} (hW : W.PosDef) (hAt : Aᵀ = A) :
    0 ≤ (A * (W * A * W)).trace ∧ ((A * (W * A * W)).trace = 0 ↔ A = 0) := by
  obtain ⟨V, -, hV, hVW, -⟩ := exists_basis hW (transpose_zero : (0 : Matrix ι ι ℝ)ᵀ = 0)
  set M := Vᵀ * A * V with hM
  have hMt : Mᵀ = M := by
    simp only [hM, transpose_mul, transpose_transpose, hAt, Matrix.mul_assoc]
  have e : (A * (W * A * W)).trace = ∑ i, ∑ j, M i j ^ 2 := by
    have e2 : (A * (W * A * W)).trace = (M * M).trace := by
      have : A * (W * A * W) = A * V * Vᵀ * A * V * Vᵀ := by
        rw [hVW]
        simp only [Matrix.mul_assoc]
      rw [this, trace_mul_comm, hM]
      simp only [Matrix.mul_assoc]
    rw [e2]
    simp only [trace, diag_apply, Matrix.mul_apply]
    refine Finset.sum_congr rfl fun i _ => Finset.sum_congr rfl fun j _ => ?_
    have : M j i = M i j := congrFun (congrFun hMt i) j
    rw [this, pow_two]
  rw [e]
  refine ⟨Finset.sum_nonneg fun i _ => Finset.sum_nonneg fun j _ => sq_nonneg _, ?_⟩
  constructor
  · intro h
    have hM0 : M = 0 := by
      ext i j
      have h1 := (Finset.sum_eq_zero_iff_of_nonneg fun i _ =>
        Finset.sum_nonneg fun j _ => sq_nonneg (M i j)).1 h i (Finset.mem_univ i)
      have h2 := (Finset.sum_eq_zero_iff_of_nonneg fun j _ => sq_nonneg (M i j)).1 h1 j
        (Finset.mem_univ j)
      exact pow_eq_zero_iff (two_ne_zero) |>.1 h2
    obtain ⟨B, h1, h2⟩ := isUnit_iff_exists.1 hV
    have h1t : Bᵀ * Vᵀ = 1 := by rw [← transpose_mul, h1, transpose_one]
    calc A = Bᵀ * Vᵀ * A * (V * B) := by rw [h1t, h1, Matrix.one_mul, Matrix.mul_one]
      _ = Bᵀ * M * B := by simp only [hM, Matrix.mul_assoc]
      _ = 0 := by rw [hM0, Matrix.mul_zero, Matrix.zero_mul]
  · intro h
    simp [hM, h]

theorem argmaxDiag_some {R : Type} [LinearOrder R] (M : Mat n R) (hn : 0 < n) :
    ∃ i, argmaxDiag M = some i ∧ ∀ j, M j j ≤ M i i := by
  have key : ∀ (l : List (Fin n)) (i : Fin n), ∃ k, l.foldl (fun b i => match b with
      | none => some i
      | some j => if M j j < M i i then some i else some j) (some i) = some k ∧
        M i i ≤ M k k ∧ ∀ j ∈ l, M j j ≤ M k k := by
    intro l
    induction l with
    | nil => exact fun i => ⟨i, rfl, le_refl _, by simp⟩
    | cons x l ih =>
      intro i
      simp only [List.foldl_cons]
      by_cases hx : M i i < M x x
      · rw [if_pos hx]
        obtain ⟨k, h1, h2, h3⟩ := ih x
        exact ⟨k, h1, hx.le.trans h2, fun j hj => by
          rcases List.mem_cons.1 hj with rfl | hj
          · exact h2
          · exact h3 j hj⟩
      · rw [if_neg hx]
        obtain ⟨k, h1, h2, h3⟩ := ih i
        exact ⟨k, h1, h2, fun j hj => by
          rcases List.mem_cons.1 hj with rfl | hj
          · exact (not_lt.1 hx).trans h2
          · exact h3 j hj⟩
  unfold argmaxDiag
  obtain ⟨x, l, hxl⟩ : ∃ x l, List.finRange n = x :: l := by
    cases h : List.finRange n with
    | nil => simp [List.finRange_eq_nil_iff] at h; omega
    | cons x l => exact ⟨x, l, rfl⟩
  rw [hxl]
  simp only [List.foldl_cons]
  obtain ⟨k, h1, h2, h3⟩ := key l x
  refine ⟨k, h1, fun j => ?_⟩
  have : j ∈ x :: l := hxl ▸ List.mem_finRange j
  rcases List.mem_cons.1 this with rfl | hj
  · exact h2
  · exact h3 j hj

/-- The step size never exceeds `√2` over the norm. -/
theorem stepSize_norm {b : ℝ} (hb : 0 ≤ b) :
    0 ≤ SolveLoop.stepSize b ∧ (SolveLoop.stepSize b * b) ^ 2 ≤ 2 := by
  unfold SolveLoop.stepSize
  split_ifs with h0 h1
  · subst h0
    norm_num
  · have hpos : 0 < b := lt_of_le_of_ne hb (Ne.symm h0)
    rw [lt_div_iff₀ (by positivity)] at h1
    exact ⟨zero_le_one, by nlinarith⟩
  · have hpos : 0 < b := lt_of_le_of_ne hb (Ne.symm h0)
    rw [not_lt, div_le_iff₀ (by positivity)] at h1
    refine ⟨by positivity, ?_⟩
    have : 2 / (b * b) * b = 2 / b := by field_simp
    rw [this, div_pow, div_le_iff₀ (by positivity)]
    nlinarith

theorem p_pos {x : ℝ} (h : x ^ 2 ≤ 2) : 0 < MatrixExp.Spec.p x := by
  unfold MatrixExp.Spec.p
  nlinarith [sq_nonneg (x + 1)]

section Prepare

variable {R : Type} [Field R] [LinearOrder R]

theorem negativeSlack_eq (o : Con n R) (k : R) {ny : Nat} (hy : o.m ≤ ny) (y : Nat → R) :
    negativeSlack o k ny y = .ok (-Lmi.Spec.slack o k y) := by
  unfold negativeSlack Lmi.Spec.slack
  rw [if_neg (not_lt.2 hy), neg_sub]

theorem slack_transpose {o : Con n R} (ho : Lmi.Spec.Symmetric o) (k : R) (y : Nat → R) :
    (-Lmi.Spec.slack o k y)ᵀ = -Lmi.Spec.slack o k y := by
  unfold Lmi.Spec.slack
  rw [transpose_neg, transpose_sub, transpose_smul, ho.2, transpose_sum]
  congr 2
  refine Finset.sum_congr rfl fun i hi => ?_
  rw [transpose_smul, ho.1 i (Finset.mem_range.1 hi)]

/-- What is known when a step has been prepared. -/
theorem prepareStep_inv {sqrt : R → R} {tri : List R → List R → List R} {o : Con n R} {c e : R}
    {ny : Nat} {y : Nat → R} {w w' : Ws n R} {b : Option R} {q : R}
    (h : prepareStep sqrt tri o c e ny y w = .ok (w', b, q)) :
    o.m ≤ ny ∧ w' = ⟨w.W, w.W * -Lmi.Spec.slack o c y⟩ ∧
      (∃ i, b = (extremes (Lanczos.approxEigenvalues sqrt tri w'.t1 w.W (fun r => w'.t1 r i)
        (n / 2))).map fun q => if |e + q.1| < |e + q.2| then |e + q.2| else |e + q.1|) ∧
      q = (w'.t1 * w'.t1).trace + 2 * w'.t1.trace + n := by
  unfold prepareStep at h
  by_cases hy : ny < o.m
  · simp [negativeSlack, hy] at h
  · rw [negativeSlack_eq o c (not_lt.1 hy)] at h
    simp only [Outcome.bind_ok] at h
    cases hi : argmaxDiag (w.W * -Lmi.Spec.slack o c y) with
    | none => simp only [hi, reduceCtorEq] at h
    | some i =>
      simp only [hi, Outcome.ok.injEq, Prod.mk.injEq] at h
      obtain ⟨rfl, h2, h3⟩ := h
      exact ⟨not_lt.1 hy, rfl, ⟨i, h2.symm⟩, h3.symm⟩

/-- The extreme values of a list are members, and all members lie between. -/
theorem extremes_some {l : Option (List R)} {q : R × R} (h : extremes l = some q) :
    ∃ l', l = some l' ∧ q.1 ∈ l' ∧ q.2 ∈ l' ∧ ∀ t ∈ l', q.1 ≤ t ∧ t ≤ q.2 := by
  cases l with
  | none => simp [extremes] at h
  | some l =>
    simp only [extremes, Option.bind_eq_bind, Option.bind_some, Option.bind_eq_some_iff,
      Option.some.injEq] at h
    obtain ⟨a, ha, b, hb, rfl⟩ := h
    refine ⟨l, rfl, List.min?_mem ha, List.max?_mem hb, fun t ht => ⟨?_, ?_⟩⟩
    · exact (List.min?_eq_some_iff.1 ha).2 t ht
    · exact (List.max?_eq_some_iff.1 hb).2 t ht

theorem extremes_ne_none {l : List R} (h : l ≠ []) : ∃ q, extremes (some l) = some q := by
  obtain ⟨a, ha⟩ := Option.isSome_iff_exists.1 (List.isSome_min?_of_ne_nil h)
  obtain ⟨b, hb⟩ := Option.isSome_iff_exists.1 (List.isSome_max?_of_ne_nil h)
  exact ⟨(a, b), by simp [extremes, ha, hb]⟩

theorem traceInner_eq {X Y : Mat n R} (hX : Xᵀ = X) : traceInner X Y = (X * Y).trace := by
  simp only [traceInner, trace, diag_apply, Matrix.mul_apply]
  refine Finset.sum_congr rfl fun c _ => Finset.sum_congr rfl fun r _ => ?_
  have : X c r = X r c := congrFun (congrFun hX.symm c) r
  rw [this]

end Prepare

end Verif.Lmi
