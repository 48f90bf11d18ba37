import Mathlib.Algebra.Field.Rat
import Mathlib.Analysis.Real.Sqrt
import Verif.Lemmas.Lmi
import Verif.Model.Solve

/-!
# Properties of linear matrix inequalities (C57, C58, C59)
-/

namespace Verif.Lmi

open Matrix Finset MatrixExp.Spec

variable {n : Nat}

/-! ### C57 -/

/-- A step keeps the scaling point positive definite exactly if the rational function is positive at
the eigenvalues of the direction. -/
theorem C57_iff {solve : Mat n ℝ → Mat n ℝ → Mat n ℝ} (hs : Solves solve) {W S : Mat n ℝ}
    (hW : W.PosDef) (hS : Sᵀ = S) (scale e : ℝ)
    (hp : ∀ μ, Eigenvalue (W * S) μ → p (-(scale * (μ + e))) ≠ 0) :
    (takeStep solve scale e ⟨W, W * S⟩).W.PosDef ↔
      ∀ μ, Eigenvalue (W * S) μ → 0 < p (scale * (μ + e)) / p (-(scale * (μ + e))) := by
  obtain ⟨V, d, hV, hVW, hd⟩ := exists_basis hW hS
  have he := eigenvalue_iff hV hd
  rw [takeStep, geodesicUpdate_conj hs hS hV hVW hd scale e fun i => hp _ ((he _).2 ⟨i, rfl⟩),
    posDef_conj hV]
  constructor
  · intro h μ hμ
    obtain ⟨i, rfl⟩ := (he μ).1 hμ
    exact h i
  · exact fun h i => h _ ((he _).2 ⟨i, rfl⟩)

example : (1 : Mat 2 ℝ).PosDef ∧ ((-1 : Mat 2 ℝ)ᵀ = -1) ∧
    ∀ μ, Eigenvalue ((1 : Mat 2 ℝ) * -1) μ → p (-(1 * (μ + 1))) ≠ 0 := by
  refine ⟨Matrix.PosDef.one, by simp, ?_⟩
  rintro μ ⟨v, hv, he⟩
  rw [Matrix.one_mul, neg_mulVec, one_mulVec] at he
  obtain ⟨i, hi⟩ := Function.ne_iff.1 hv
  have := congrFun he i
  simp only [Pi.neg_apply, Pi.smul_apply, smul_eq_mul] at this
  have : μ = -1 := mul_right_cancel₀ hi (by rw [← this]; ring)
  subst this
  norm_num [p]

/-- C57 as far as it holds: if the norm `b` that a step was prepared with is indeed a bound for the
eigenvalues of the direction then the step of the corresponding size is positive definite.  Missing is
that the reported norm is such a bound (it is not: `C57_violated`). -/
theorem C57_step_partial {solve : Mat n ℝ → Mat n ℝ → Mat n ℝ} (hs : Solves solve)
    (sqrt : ℝ → ℝ) (tri : List ℝ → List ℝ → List ℝ) (o : Con n ℝ) (ho : Spec.Symmetric o)
    (c e : ℝ) (ny : Nat) (y : Nat → ℝ) (w w' : Ws n ℝ) (hW : w.W.PosDef) (b q : ℝ)
    (h : prepareStep sqrt tri o c e ny y w = .ok (w', some b, q))
    (hb : ∀ μ, Eigenvalue (w.W * -Spec.slack o c y) μ → |μ + e| ≤ b) :
    (takeStep solve (SolveLoop.stepSize b) e w').W.PosDef := by
  obtain ⟨-, rfl, ⟨i, hi⟩, -⟩ := prepareStep_inv h
  have hb0 : 0 ≤ b := by
    obtain ⟨q, -, rfl⟩ := Option.map_eq_some_iff.1 hi.symm
    split_ifs <;> exact abs_nonneg _
  obtain ⟨hs0, hs2⟩ := stepSize_norm hb0
  have hx : ∀ μ, Eigenvalue (w.W * -Spec.slack o c y) μ →
      (SolveLoop.stepSize b * (μ + e)) ^ 2 ≤ 2 := by
    intro μ hμ
    refine le_trans ?_ hs2
    rw [mul_pow, mul_pow]
    exact mul_le_mul_of_nonneg_left (sq_le_sq' (abs_le.1 (hb μ hμ)).1 (abs_le.1 (hb μ hμ)).2)
      (sq_nonneg _)
  have hneg : ∀ μ, Eigenvalue (w.W * -Spec.slack o c y) μ →
      0 < p (-(SolveLoop.stepSize b * (μ + e))) := fun μ hμ => p_pos (by rw [neg_sq]; exact hx μ hμ)
  refine (C57_iff hs hW (slack_transpose ho c y) _ e fun μ hμ => (hneg μ hμ).ne').2 fun μ hμ => ?_
  exact div_pos (p_pos (hx μ hμ)) (hneg μ hμ)

/-- For one row the reported norm is exact. -/
theorem C57_order_one {solve : Mat 1 ℝ → Mat 1 ℝ → Mat 1 ℝ} (hs : Solves solve)
    (sqrt : ℝ → ℝ) (tri : List ℝ → List ℝ → List ℝ) (o : Con 1 ℝ) (ho : Spec.Symmetric o)
    (c e : ℝ) (y : Nat → ℝ) (w : Ws 1 ℝ) (hW : w.W.PosDef) :
    ∃ w' b q, prepareStep sqrt tri o c e o.m y w = .ok (w', some b, q) ∧
      (takeStep solve (SolveLoop.stepSize b) e w').W.PosDef := by
  obtain ⟨i, hi, -⟩ := argmaxDiag_some (w.W * -Spec.slack o c y) one_pos
  have hl : Lanczos.approxEigenvalues sqrt tri (w.W * -Spec.slack o c y) w.W
      (fun r => (w.W * -Spec.slack o c y) r i) (1 / 2) =
        some [(w.W * -Spec.slack o c y) 0 0] := by
    simp [Lanczos.approxEigenvalues, List.finRange_succ]
  have h : prepareStep sqrt tri o c e o.m y w = .ok (⟨w.W, w.W * -Spec.slack o c y⟩,
      some |e + (w.W * -Spec.slack o c y) 0 0|, (w.W * -Spec.slack o c y *
        (w.W * -Spec.slack o c y)).trace + 2 * (w.W * -Spec.slack o c y).trace + (1 : Nat)) := by
    unfold prepareStep
    rw [negativeSlack_eq o c (le_refl _)]
    simp only [Outcome.bind_ok, hi, hl]
    simp [extremes]
  refine ⟨_, _, _, h, ?_⟩
  refine C57_step_partial hs sqrt tri o ho c e o.m y w _ hW _ _ h fun μ hμ => ?_
  obtain ⟨v, hv, he⟩ := hμ
  have := congrFun he 0
  simp only [mulVec, dotProduct, univ_unique, Fin.default_eq_zero, sum_singleton, Pi.smul_apply,
    smul_eq_mul] at this
  have hv0 : v 0 ≠ 0 := fun h0 => hv (funext fun j => by
    obtain rfl := Subsingleton.elim j 0
    exact h0)
  rw [mul_right_cancel₀ hv0 this, add_comm]

example : (1 : Mat 1 ℝ).PosDef ∧
    Spec.Symmetric (⟨1, fun _ => !![-3], !![2]⟩ : Con 1 ℝ) := by
  refine ⟨Matrix.PosDef.one, fun i _ => ?_, ?_⟩ <;> ext a b <;> simp

/-- A constraint of order two with one variable. -/
noncomputable def witness : Con 2 ℝ := ⟨1, fun _ => !![1 / 10, 0; 0, -10], 0⟩

/-- From the identity the step of the reported size leaves the cone: the largest diagonal entry of the
direction belongs to the small eigenvalue, with which the only iteration starts. -/
theorem C57_violated (sqrt : ℝ → ℝ) (hsq : ∀ x, 0 < x → SolveLoop.Spec.SqrtAt sqrt x)
    (tri : List ℝ → List ℝ → List ℝ) (htri : Spec.TriEigenvalues tri)
    (solve : Mat 2 ℝ → Mat 2 ℝ → Mat 2 ℝ) (hs : Solves solve) (w : Ws 2 ℝ) :
    Spec.Symmetric witness ∧ (setIdentity w).W.PosDef ∧
      ∃ w' b q, prepareStep sqrt tri witness 1 1 1 (fun _ => 1) (setIdentity w) =
          .ok (w', some b, q) ∧ b = 11 / 10 ∧ SolveLoop.stepSize b = 1 ∧
        (takeStep solve (SolveLoop.stepSize b) 1 w').W 1 1 < 0 ∧
        ¬(takeStep solve (SolveLoop.stepSize b) 1 w').W.PosDef := by
  have hsym : Spec.Symmetric witness := by
    refine ⟨fun i _ => ?_, ?_⟩
    · ext a b
      fin_cases a <;> fin_cases b <;> simp [witness]
    · simp [witness]
  have hsl : (setIdentity w).W * -Spec.slack witness 1 (fun _ => 1) =
      diagonal ![(1 / 10 : ℝ), -10] := by
    ext a b
    fin_cases a <;> fin_cases b <;> simp [witness, Spec.slack, setIdentity]
  have harg : argmaxDiag (diagonal ![(1 / 10 : ℝ), -10]) = some 0 := by
    have : ¬((1 : ℝ) / 10 < -10) := by norm_num
    simp only [argmaxDiag, List.finRange_succ, List.finRange_zero, List.map_nil, List.map_cons,
      List.foldl_cons, List.foldl_nil, diagonal_apply_eq]
    simp only [Fin.succ_zero_eq_one, cons_val_one, cons_val_zero, this, if_false]
  have hq : Lanczos.lanczos sqrt (diagonal ![(1 / 10 : ℝ), -10]) (setIdentity w).W
      (fun r => diagonal ![(1 / 10 : ℝ), -10] r 0) (2 / 2) = some ([1 / 10], []) := by
    have hr : (fun r => diagonal ![(1 / 10 : ℝ), -10] r 0) = ![1 / 10, 0] := by
      funext r
      fin_cases r <;> simp
    obtain ⟨h0, h1⟩ := hsq (1 / 100) (by norm_num)
    have hs' : sqrt (1 / 100) = 1 / 10 := by nlinarith
    have hin : Lanczos.inner (⟨(1 : Mat 2 ℝ) *ᵥ ![1 / 10, 0], ![1 / 10, 0]⟩ : Lanczos.Pair (Fin 2) ℝ)
        ⟨(1 : Mat 2 ℝ) *ᵥ ![1 / 10, 0], ![1 / 10, 0]⟩ = 1 / 100 := by
      simp only [Lanczos.inner, one_mulVec, dotProduct, Fin.sum_univ_two]
      norm_num
    unfold Lanczos.lanczos
    rw [hr]
    simp only [setIdentity, hin, hs']
    rw [if_neg (by norm_num)]
    simp [Lanczos.loop, Lanczos.inner, Lanczos.divBy, Lanczos.apply, dotProduct, mulVec]
  obtain ⟨hne, ht⟩ := htri [1 / 10] [] (by simp) rfl
  have ht' : ∀ t ∈ tri [1 / 10] [], t = 1 / 10 := by
    intro t h
    obtain ⟨v, hv, he⟩ := ht t h
    have := congrFun he (0 : Fin 1)
    simp only [mulVec, dotProduct, Spec.jacobi, List.length_singleton, univ_unique,
      Fin.default_eq_zero, sum_singleton, if_true, Pi.smul_apply, smul_eq_mul, Fin.val_zero,
      List.getD_cons_zero] at this
    have hv0 : v (0 : Fin 1) ≠ 0 := fun h0 => hv (funext fun j => by
      obtain rfl : j = (0 : Fin 1) := Subsingleton.elim (α := Fin 1) j 0
      exact h0)
    exact (mul_right_cancel₀ hv0 this).symm
  obtain ⟨q, hex⟩ := extremes_ne_none hne
  obtain ⟨l', hl', hq1, hq2, -⟩ := extremes_some hex
  obtain rfl := Option.some.inj hl'
  have h1 := ht' _ hq1
  have h2 := ht' _ hq2
  have hprep : prepareStep sqrt tri witness 1 1 1 (fun _ => 1) (setIdentity w) =
      .ok (⟨(setIdentity w).W, (setIdentity w).W * -Spec.slack witness 1 (fun _ => 1)⟩,
        some (11 / 10), (diagonal ![(1 / 10 : ℝ), -10] * diagonal ![(1 / 10 : ℝ), -10]).trace +
          2 * (diagonal ![(1 / 10 : ℝ), -10]).trace + (2 : Nat)) := by
    unfold prepareStep
    rw [negativeSlack_eq witness 1 (le_refl 1 : witness.m ≤ 1)]
    have hap : Lanczos.approxEigenvalues sqrt tri (diagonal ![(1 / 10 : ℝ), -10]) (setIdentity w).W
        (fun r => diagonal ![(1 / 10 : ℝ), -10] r 0) (2 / 2) = some (tri [1 / 10] []) := by
      unfold Lanczos.approxEigenvalues
      rw [if_neg (by norm_num), hq]
      rfl
    have hab : |1 + (1 / 10 : ℝ)| = 11 / 10 := by
      rw [abs_of_pos] <;> norm_num
    simp only [Outcome.bind_ok, hsl, harg, hap, Option.map_some, hex, h1, h2, hab, lt_irrefl, if_false]
  have hstep : SolveLoop.stepSize (11 / 10 : ℝ) = 1 := by
    unfold SolveLoop.stepSize
    norm_num
  have hval : (takeStep solve 1 1
      ⟨(setIdentity w).W, (setIdentity w).W * -Spec.slack witness 1 (fun _ => 1)⟩).W 1 1 < 0 := by
    have hV : (1 : Mat 2 ℝ) = 1 * 1ᵀ := by simp
    have hd : (1 : Mat 2 ℝ) * -Spec.slack witness 1 (fun _ => 1) * 1 =
        1 * diagonal ![(1 / 10 : ℝ), -10] := by
      rw [Matrix.one_mul, Matrix.mul_one, Matrix.one_mul, ← hsl]
      exact (Matrix.one_mul _).symm
    have := geodesicUpdate_conj hs (slack_transpose hsym 1 fun _ => 1) isUnit_one hV hd 1 1 (by
      intro i
      fin_cases i <;> norm_num [p])
    show (geodesicUpdate solve 1 1 _).W 1 1 < 0
    simp only [setIdentity]
    rw [this]
    norm_num [p]
  refine ⟨hsym, Matrix.PosDef.one, _, _, _, hprep, rfl, hstep, ?_, ?_⟩
  · rw [hstep]
    exact hval
  · intro hpd
    rw [hstep] at hpd
    exact absurd (hpd.diag_pos (i := 1)) (not_lt.2 hval.le)

/-- The assumptions on the numerical routines can be met. -/
example : ∃ sqrt : ℝ → ℝ, ∀ x, 0 < x → SolveLoop.Spec.SqrtAt sqrt x :=
  ⟨Real.sqrt, fun x hx => ⟨Real.sqrt_nonneg x, Real.mul_self_sqrt hx.le⟩⟩

example : ∃ solve : Mat 2 ℝ → Mat 2 ℝ → Mat 2 ℝ, Solves solve :=
  ⟨fun D N => D⁻¹ * N, fun D N h => by rw [← Matrix.mul_assoc, mul_nonsing_inv D h, Matrix.one_mul]⟩

example : ∃ tri : List ℝ → List ℝ → List ℝ, Spec.TriEigenvalues tri := by
  have h : ∀ a b : List ℝ, ∃ l : List ℝ, a ≠ [] → a.length = b.length + 1 →
      l ≠ [] ∧ ∀ t ∈ l, Eigenvalue (Spec.jacobi a b) t := by
    intro a b
    have hsym : (Spec.jacobi a b)ᵀ = Spec.jacobi a b := by
      ext i j
      unfold Spec.jacobi transpose
      simp only [of_apply]
      by_cases hij : i = j
      · subst hij
        rfl
      · rw [if_neg hij, if_neg (Ne.symm hij)]
        split_ifs <;> first | rfl | omega
    obtain ⟨U, d, h1, h2, h3⟩ := exists_spectral hsym
    by_cases ha : a = []
    · exact ⟨[], fun h => absurd ha h⟩
    · refine ⟨[d ⟨0, List.length_pos_iff.2 ha⟩], fun _ _ => ⟨by simp, fun t ht => ?_⟩⟩
      rw [List.mem_singleton] at ht
      have hc : Spec.jacobi a b * U = U * diagonal d := by
        rw [h3, Matrix.mul_assoc, h2, Matrix.mul_one]
      exact (eigenvalue_iff (isUnit_iff_exists.2 ⟨Uᵀ, h1, h2⟩) hc t).2 ⟨_, ht.symm⟩
  choose tri h using h
  exact ⟨tri, h⟩

/-! ### C58 -/

/-- The approximate eigenvalues of a scaled slack lie between the smallest and the largest eigenvalue,
for every start vector and number of iterations. -/
theorem C58_within {sqrt : ℝ → ℝ} (hsq : ∀ x, 0 < x → SolveLoop.Spec.SqrtAt sqrt x)
    {tri : List ℝ → List ℝ → List ℝ} (htri : Spec.TriEigenvalues tri) {W S : Mat n ℝ}
    (hW : W.PosDef) (hS : Sᵀ = S) (lo hi : ℝ)
    (hb : ∀ μ, Eigenvalue (W * S) μ → lo ≤ μ ∧ μ ≤ hi) (r : Fin n → ℝ) (iters : Nat)
    (l : List ℝ) (h : Lanczos.approxEigenvalues sqrt tri (W * S) W r iters = some l) :
    ∀ t ∈ l, lo ≤ t ∧ t ≤ hi :=
  approx_bounds hsq htri hW hS hb h

/-- The remaining hypotheses hold for matrices that do not commute. -/
example : (!![2, 1; 1, 1] : Mat 2 ℝ).PosDef ∧ (!![0, 1; 1, 3] : Mat 2 ℝ)ᵀ = !![0, 1; 1, 3] := by
  have hV : IsUnit (!![1, 1; 0, 1] : Mat 2 ℝ) := by
    rw [Matrix.isUnit_iff_isUnit_det, det_fin_two]
    simp
  have e : (!![2, 1; 1, 1] : Mat 2 ℝ) = !![1, 1; 0, 1] * diagonal (fun _ => 1) * (!![1, 1; 0, 1])ᵀ := by
    ext i j
    fin_cases i <;> fin_cases j <;> norm_num [Matrix.mul_apply, Fin.sum_univ_two]
  refine ⟨?_, ?_⟩
  · rw [e]
    exact (posDef_conj hV _).2 fun _ => one_pos
  · ext i j
    fin_cases i <;> fin_cases j <;> simp

/-- They exist unless the start vector is zero. -/
theorem C58_defined {sqrt : ℝ → ℝ} {tri : List ℝ → List ℝ → List ℝ} {W S : Mat n ℝ}
    (hW : W.PosDef) (r : Fin n → ℝ) (iters : Nat) :
    (∃ l, Lanczos.approxEigenvalues sqrt tri (W * S) W r iters = some l) ↔ n = 1 ∨ r ≠ 0 := by
  unfold Lanczos.approxEigenvalues
  split_ifs with h1
  · simp [h1]
  · simp only [h1, false_or, Option.map_eq_some_iff, Lanczos.lanczos]
    have hin : Lanczos.inner (⟨W *ᵥ r, r⟩ : Lanczos.Pair (Fin n) ℝ) ⟨W *ᵥ r, r⟩ = r ⬝ᵥ (W *ᵥ r) :=
      dotProduct_comm _ _
    rw [hin]
    by_cases hr : r = 0
    · subst hr
      simp
    · have : 0 < r ⬝ᵥ (W *ᵥ r) := by
        have := hW.dotProduct_mulVec_pos hr
        simpa using this
      rw [if_neg (not_le.2 this)]
      simp [hr]

/-- The reported norm never exceeds the true one, and the reported sum of squares is exact (for
`e_weight = 1`). -/
theorem C58_norm {sqrt : ℝ → ℝ} (hsq : ∀ x, 0 < x → SolveLoop.Spec.SqrtAt sqrt x)
    {tri : List ℝ → List ℝ → List ℝ} (htri : Spec.TriEigenvalues tri) (o : Con n ℝ)
    (ho : Spec.Symmetric o) (c e : ℝ) (ny : Nat) (y : Nat → ℝ) (w w' : Ws n ℝ) (hW : w.W.PosDef)
    (b : Option ℝ) (q : ℝ) (h : prepareStep sqrt tri o c e ny y w = .ok (w', b, q)) :
    (∀ b', b = some b' → ∀ B, (∀ μ, Eigenvalue (w.W * -Spec.slack o c y) μ → |μ + e| ≤ B) →
      b' ≤ B) ∧
    (e = 1 → q = ((1 - w.W * Spec.slack o c y) * (1 - w.W * Spec.slack o c y)).trace) := by
  obtain ⟨-, rfl, ⟨i, hi⟩, hq⟩ := prepareStep_inv h
  constructor
  · rintro b' rfl B hB
    obtain ⟨x, hx, rfl⟩ := Option.map_eq_some_iff.1 hi.symm
    obtain ⟨l, hl, h1, h2, -⟩ := extremes_some hx
    have hin := approx_bounds hsq htri hW (slack_transpose ho c y) (lo := -B - e) (hi := B - e)
      (fun μ hμ => by
        have := abs_le.1 (hB μ hμ)
        constructor <;> linarith) hl
    have k1 := hin _ h1
    have k2 := hin _ h2
    split_ifs <;> rw [abs_le] <;> constructor <;> linarith
  · rintro -
    rw [hq]
    have : (1 - w.W * Spec.slack o c y) = 1 + w.W * -Spec.slack o c y := by
      rw [Matrix.mul_neg, sub_eq_add_neg]
    rw [this]
    simp only [Matrix.mul_add, Matrix.add_mul, Matrix.one_mul, Matrix.mul_one, trace_add, trace_one,
      Fintype.card_fin]
    ring

/-- A vanishing slack makes the norm undefined: the iteration divides by zero. -/
theorem C58_nan_violated (sqrt : ℝ → ℝ) (tri : List ℝ → List ℝ → List ℝ) (hn : 2 ≤ n) (o : Con n ℝ)
    (c e : ℝ) (y : Nat → ℝ) (h0 : Spec.slack o c y = 0) (w : Ws n ℝ) :
    ∃ w' q, prepareStep sqrt tri o c e o.m y w = .ok (w', none, q) := by
  obtain ⟨i, hi, -⟩ := argmaxDiag_some (w.W * -Spec.slack o c y) (by omega)
  unfold prepareStep
  rw [negativeSlack_eq o c (le_refl _)]
  simp only [Outcome.bind_ok, hi]
  have : Lanczos.approxEigenvalues sqrt tri (w.W * -Spec.slack o c y) w.W
      (fun r => (w.W * -Spec.slack o c y) r i) (n / 2) = none := by
    unfold Lanczos.approxEigenvalues
    rw [if_neg (by omega), h0]
    simp [Lanczos.lanczos, Lanczos.inner, dotProduct]
  rw [this]
  exact ⟨_, _, rfl⟩

/-- The slack vanishes at the start for an objective without affine term. -/
example : Spec.slack (⟨1, fun _ => !![1, 0; 0, -1], 0⟩ : Con 2 ℝ) 1 (fun _ => 0) = 0 := by
  simp [Spec.slack]

/-- The eigenvalue summary: trace and sum of squares are exact, the bounds lie within the spectrum. -/
theorem C58_slack {sqrt : ℝ → ℝ} (hsq : ∀ x, 0 < x → SolveLoop.Spec.SqrtAt sqrt x)
    {tri : List ℝ → List ℝ → List ℝ} (htri : Spec.TriEigenvalues tri) (o : Con n ℝ)
    (ho : Spec.Symmetric o) (w : Ws n ℝ) (hW : w.W.PosDef) (ny : Nat) (y : Nat → ℝ) (c : ℝ)
    (d d' : Divergence.Slack ℝ) (h : slackData sqrt tri o w ny y c d = .ok (some d')) :
    d'.trace = (w.W * Spec.slack o c y).trace ∧
      d'.frob = (w.W * Spec.slack o c y * (w.W * Spec.slack o c y)).trace ∧
      d'.rank = d.rank ∧ d'.lmin ≤ d'.lmax ∧
      ∀ lo hi, (∀ μ, Eigenvalue (w.W * Spec.slack o c y) μ → lo ≤ μ ∧ μ ≤ hi) →
        lo ≤ d'.lmin ∧ d'.lmax ≤ hi := by
  unfold slackData at h
  by_cases hy : ny < o.m
  · simp [negativeSlack, hy] at h
  · rw [negativeSlack_eq o c (not_lt.1 hy)] at h
    simp only [Outcome.bind_ok] at h
    cases hi : argmaxDiag (w.W * -Spec.slack o c y) with
    | none => simp only [hi, reduceCtorEq] at h
    | some i =>
      simp only [hi, Outcome.ok.injEq, Option.map_eq_some_iff] at h
      obtain ⟨x, hx, rfl⟩ := h
      obtain ⟨l, hl, h1, h2, h3⟩ := extremes_some hx
      refine ⟨?_, ?_, rfl, neg_le_neg (h3 _ h2).1, fun lo hi' hb => ?_⟩
      · simp [Matrix.mul_neg]
      · simp [Matrix.mul_neg, Matrix.neg_mul]
      · have hin := approx_bounds hsq htri hW (slack_transpose ho c y) (lo := -hi') (hi := -lo)
          (fun μ hμ => by
            obtain ⟨v, hv, he⟩ := hμ
            have := hb (-μ) ⟨v, hv, by
              rw [Matrix.mul_neg, neg_mulVec] at he
              rw [neg_smul, ← he, neg_neg]⟩
            constructor <;> linarith) hl
        have k1 := hin _ h1
        have k2 := hin _ h2
        constructor <;> linarith

/-! ### C59 -/

section Schur

open Schur

variable {R : Type} [Field R] [LinearOrder R]

/-- The system that an inequality contributes, in its first rows, when it is initialised. -/
theorem C59_schur (o : Con n R) (ho : Spec.Symmetric o) (W : Mat n R) (hW : Wᵀ = W) (s : Sys R)
    (hr : o.m ≤ s.rows) :
    (∃ t, schur o W true s = .ok t ∧ t.rows = s.rows ∧
      Spec.Contributes o W t.G t.AW t.AQc t.wc t.cQc) ∧
    (∃ t, schur o W false s = .ok t ∧ t.rows = s.rows ∧
      Spec.Contributes o W (fun i j => t.G i j - s.G i j) (fun i => t.AW i - s.AW i)
        (fun i => t.AQc i - s.AQc i) (t.wc - s.wc) (t.cQc - s.cQc)) := by
  have hsym : ∀ X : Mat n R, Xᵀ = X → (W * (X * W))ᵀ = W * (X * W) := by
    intro X hX
    simp only [transpose_mul, hX, hW, Matrix.mul_assoc]
  have eG : ∀ i < o.m, ∀ j, traceInner (W * (o.A i * W)) (o.A j) =
      (o.A i * (W * o.A j * W)).trace := by
    intro i hi j
    rw [traceInner_eq (hsym _ (ho.1 i hi)), Matrix.mul_assoc W, trace_mul_comm W]
    simp only [Matrix.mul_assoc]
  have eC : ∀ i < o.m, traceInner o.C (W * (o.A i * W)) = (o.A i * (W * o.C * W)).trace := by
    intro i _
    rw [traceInner_eq ho.2, ← Matrix.mul_assoc W, ← Matrix.mul_assoc, trace_mul_comm, ← Matrix.mul_assoc,
      trace_mul_comm (o.A i), Matrix.mul_assoc, Matrix.mul_assoc, Matrix.mul_assoc]
  unfold schur
  simp only [if_neg (not_lt.2 hr), if_true, Bool.false_eq_true, if_false]
  refine ⟨⟨_, rfl, rfl, ?_, ?_, ?_, ?_, ?_⟩, ⟨_, rfl, rfl, ?_, ?_, ?_, ?_, ?_⟩⟩
  · intro i hi j hj
    simp only [hi, hj, and_self, if_true, eG i hi j]
  · intro i hi
    simp only [hi, if_true]
  · intro i hi
    simp only [hi, if_true, eC i hi]
  · exact (traceInner_eq ho.2).trans (trace_mul_comm _ _)
  · simp only [traceInner_eq ho.2, Matrix.mul_assoc]
  · intro i hi j hj
    simp only [hi, hj, and_self, if_true, eG i hi j, add_sub_cancel_left]
  · intro i hi
    simp only [hi, if_true, add_sub_cancel_left]
  · intro i hi
    simp only [hi, if_true, eC i hi, add_sub_cancel_left]
  · simp only [add_sub_cancel_left]
    exact (traceInner_eq ho.2).trans (trace_mul_comm _ _)
  · simp only [traceInner_eq ho.2, Matrix.mul_assoc, add_sub_cancel_left]

example : Spec.Symmetric (⟨2, fun i => if i = 0 then !![1, 2; 2, 0] else !![0, 1; 1, -1], 1⟩ : Con 2 ℚ) := by
  refine ⟨fun i _ => ?_, by simp⟩
  by_cases h : i = 0
  · simp only [h, if_true]
    decide +kernel
  · simp only [h, if_false]
    decide +kernel

/-- Rows and columns of variables beyond the matrices of the constraint keep what was in memory before,
also when the system is initialised: their contribution should be zero. -/
theorem C59_unwritten_violated (o : Con n R) (W : Mat n R) (s : Sys R) (hr : o.m < s.rows) :
    ∃ t, schur o W true s = .ok t ∧ ∀ i, o.m ≤ i → (∀ j, t.G i j = s.G i j) ∧
      t.AW i = s.AW i ∧ t.AQc i = s.AQc i := by
  unfold schur
  rw [if_neg (not_lt.2 hr.le)]
  refine ⟨_, rfl, fun i hi => ⟨fun j => ?_, ?_, ?_⟩⟩
  · exact if_neg fun h => absurd h.1 (not_lt.2 hi)
  · exact if_neg (not_lt.2 hi)
  · exact if_neg (not_lt.2 hi)

/-- One matrix, two variables: the entry of the second one is what was there. -/
example : (schur (⟨1, fun _ => !![1, 0; 0, 1], !![1, 0; 0, 1]⟩ : Con 2 ℚ) !![1, 0; 0, 1] true
    ⟨2, fun _ _ => 77, fun _ => 78, fun _ => 79, 0, 0⟩).toOption.map
      (fun t => (t.G 0 0, t.G 1 1, t.AW 1, t.AQc 1)) = some (2, 77, 78, 79) := by
  decide +kernel

/-- More matrices than rows: out of range. -/
theorem C59_too_many (o : Con n R) (W : Mat n R) (b : Bool) (s : Sys R) (hr : s.rows < o.m) :
    schur o W b s = .ub := by
  unfold schur
  rw [if_pos hr]

end Schur

/-- The matrix of the system is positive semidefinite, and definite on combinations that do not
vanish. -/
theorem C59_definite (o : Con n ℝ) (ho : Spec.Symmetric o) {W : Mat n ℝ} (hW : W.PosDef)
    (y : Nat → ℝ) :
    0 ≤ ∑ i ∈ range o.m, ∑ j ∈ range o.m, y i * y j * (o.A i * (W * o.A j * W)).trace ∧
      (∑ i ∈ range o.m, ∑ j ∈ range o.m, y i * y j * (o.A i * (W * o.A j * W)).trace = 0 ↔
        ∑ i ∈ range o.m, y i • o.A i = 0) := by
  set A := ∑ i ∈ range o.m, y i • o.A i with hA
  have hAt : Aᵀ = A := by
    rw [hA, transpose_sum]
    refine sum_congr rfl fun i hi => ?_
    rw [transpose_smul, ho.1 i (mem_range.1 hi)]
  have e1 : ∑ i ∈ range o.m, ∑ j ∈ range o.m, y i * y j * (o.A i * (W * o.A j * W)).trace =
      (A * (W * A * W)).trace := by
    rw [hA]
    simp only [Matrix.sum_mul, Matrix.mul_sum, Matrix.smul_mul, Matrix.mul_smul, trace_sum,
      trace_smul, smul_eq_mul, mul_sum]
    rw [sum_comm]
    refine sum_congr rfl fun i _ => sum_congr rfl fun j _ => ?_
    ring
  rw [e1]
  exact trace_congruence hW hAt

end Verif.Lmi
