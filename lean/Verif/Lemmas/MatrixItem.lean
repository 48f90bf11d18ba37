import Verif.Lemmas.TraceCentering
import Verif.Lemmas.GapRun
import Verif.Lemmas.ConeCentering
import Verif.Props.HermitianLmi

/-!
# Lemmas for C95: two full steps of one constraint
-/

namespace Verif.MatrixCentering

open Finset Verif.Dual Gap Gap.Spec Matrix
open StepScalar (Full)

/-! ### Multiplicities of the eigenvalues of a Hermitian matrix -/

section Multiplicity

open Hyper HermLmi

/-- The eigenvalues of a product of hypercomplex matrices have multiplicities that are at least the dimension of the
algebra. -/
theorem multiplicity {d n : Nat} (hd : d = 1 ∨ d = 2 ∨ d = 4) (X : HMat d n ℝ)
    {V : Matrix (Fin d × Fin n) (Fin d × Fin n) ℝ} {l : Fin d × Fin n → ℝ} (hV : IsUnit V)
    (h : lmat X * V = V * diagonal l) (i₀ : Fin d × Fin n) :
    d ≤ (univ.filter fun i => l i = l i₀).card := by
  obtain ⟨U, h1, h2⟩ := isUnit_iff_exists.1 hV
  set μ := l i₀ with hμ
  obtain ⟨v, hv, he⟩ := (eigenvalue_lmat X μ).2 ((Lmi.eigenvalue_iff hV h μ).2 ⟨i₀, rfl⟩)
  have he' : multiply X v = scalarMultiply v μ := by
    funext c
    ext r s
    rw [he c r]
    simp [scalarMultiply, mul_comm]
  -- multiplication from the right
  have hright : ∀ u : Hyp d Unit Unit ℝ, lmat X *ᵥ flat (multiply v u) = μ • flat (multiply v u) := by
    intro u
    rw [← flat_multiply, ← multiply_assoc hd, he', scalar_multiply, flat_scalar]
  have hsupp : ∀ (u : Hyp d Unit Unit ℝ) (i : Fin d × Fin n), l i ≠ μ → (U *ᵥ flat (multiply v u)) i = 0 := by
    intro u i hi
    have h3 : diagonal l *ᵥ (U *ᵥ flat (multiply v u)) = μ • (U *ᵥ flat (multiply v u)) := by
      have : diagonal l * U = U * lmat X := by
        calc diagonal l * U = U * V * diagonal l * U := by rw [h2, Matrix.one_mul]
          _ = U * (lmat X * V) * U := by rw [h]; simp only [Matrix.mul_assoc]
          _ = U * lmat X * (V * U) := by simp only [Matrix.mul_assoc]
          _ = U * lmat X := by rw [h1, Matrix.mul_one]
      rw [mulVec_mulVec, this, ← mulVec_mulVec, hright, mulVec_smul]
    have h4 := congrFun h3 i
    rw [mulVec_diagonal, Pi.smul_apply, smul_eq_mul] at h4
    have : (l i - μ) * (U *ᵥ flat (multiply v u)) i = 0 := by linarith
    exact (mul_eq_zero.1 this).resolve_left (sub_ne_zero.2 hi)
  let col : (Fin d → ℝ) → Hyp d Unit Unit ℝ := fun u c => Matrix.of fun _ _ => u c
  let φ : (Fin d → ℝ) →ₗ[ℝ] ({i // l i = μ} → ℝ) :=
    { toFun := fun u i => (U *ᵥ flat (multiply v (col u))) i.1
      map_add' := fun u u' => by
        have : col (u + u') = Hyper.add (col u) (col u') := by
          funext c
          ext r s
          simp [col, Hyper.add]
        funext i
        rw [this, multiply_add, flat_add, mulVec_add]
        rfl
      map_smul' := fun a u => by
        have : col (a • u) = scalarMultiply (col u) a := by
          funext c
          ext r s
          simp [col, scalarMultiply, mul_comm]
        funext i
        rw [this, multiply_scalar, flat_scalar, mulVec_smul]
        rfl }
  have hinj : Function.Injective φ := by
    rw [← LinearMap.ker_eq_bot, LinearMap.ker_eq_bot']
    intro u hu
    have h3 : flat (multiply v (col u)) = 0 := by
      have : U *ᵥ flat (multiply v (col u)) = 0 := by
        funext i
        by_cases hi : l i = μ
        · exact congrFun hu ⟨i, hi⟩
        · exact hsupp _ i hi
      have h4 := congrArg (fun x => V *ᵥ x) this
      simp only [mulVec_mulVec, h1, one_mulVec, mulVec_zero] at h4
      exact h4
    obtain ⟨c₀, r₀, hne⟩ : ∃ c r, v c r () ≠ 0 := by
      by_contra hcon
      push Not at hcon
      refine hv ?_
      funext c
      ext r s
      exact hcon c r
    let x : Hyp d Unit Unit ℝ := fun c => Matrix.of fun _ _ => v c r₀ ()
    have h4 : multiply x (col u) = fun _ => 0 := by
      funext c
      ext a b
      have h5 : multiply v (col u) c r₀ () = 0 := congrFun h3 (c, r₀)
      rw [multiply_apply] at h5 ⊢
      simp only [Matrix.sum_apply, Matrix.smul_apply, Matrix.mul_apply, univ_unique, sum_singleton] at h5 ⊢
      exact h5
    have h5 := norm_multiply (dim_of_assoc hd) x (col u)
    rw [h4] at h5
    have h6 : ∀ z : Fin d → ℝ, squaredNorm (col z) = ∑ c, z c * z c := fun z => by simp [squaredNorm, col]
    have h7 : squaredNorm x = ∑ c, v c r₀ () * v c r₀ () := by simp [squaredNorm, x]
    have h8 : 0 < squaredNorm x := by
      rw [h7]
      exact lt_of_lt_of_le (mul_self_pos.2 hne) (single_le_sum (f := fun c => v c r₀ () * v c r₀ ())
        (fun c _ => mul_self_nonneg _) (mem_univ c₀))
    have h9 : squaredNorm (col u) = 0 := by
      have : (0 : ℝ) = squaredNorm x * squaredNorm (col u) := by
        rw [← h5]
        simp [squaredNorm]
      exact (mul_eq_zero.1 this.symm).resolve_left h8.ne'
    rw [h6] at h9
    funext c
    have := (sum_eq_zero_iff_of_nonneg fun c _ => mul_self_nonneg (u c)).1 h9 c (mem_univ c)
    exact mul_self_eq_zero.1 this
  have := LinearMap.finrank_le_finrank_of_injective hinj
  rw [Module.finrank_fin_fun, Module.finrank_fintype_fun_eq_card, Fintype.card_subtype] at this
  exact this

/-- A single eigenvalue against the sum of squares. -/
theorem multiplicity_le {d n : Nat} (hd : d = 1 ∨ d = 2 ∨ d = 4) (X : HMat d n ℝ)
    {V : Matrix (Fin d × Fin n) (Fin d × Fin n) ℝ} {l : Fin d × Fin n → ℝ} (hV : IsUnit V)
    (h : lmat X * V = V * diagonal l) (i : Fin d × Fin n) : d * (1 - l i) ^ 2 ≤ ∑ j, (1 - l j) ^ 2 := by
  have h1 := multiplicity hd X hV h i
  have h2 : ∑ j ∈ univ.filter fun j => l j = l i, (1 - l j) ^ 2 ≤ ∑ j, (1 - l j) ^ 2 :=
    sum_le_sum_of_subset_of_nonneg (filter_subset _ _) fun _ _ _ => sq_nonneg _
  refine le_trans ?_ h2
  rw [sum_congr rfl fun j hj => by rw [(mem_filter.1 hj).2], sum_const, nsmul_eq_mul]
  exact mul_le_mul_of_nonneg_right (by exact_mod_cast h1) (sq_nonneg _)

end Multiplicity

/-! ### Directions -/

/-- What is shown of the direction of a constraint. -/
def Direction (x : Item ℝ) (c : ℝ) (y : Nat → ℝ) (n : Option ℝ) (b : ℝ) : Prop :=
  0 ≤ b ∧ (b ≤ 1 → Bounded c 1 y x) ∧ ∀ n', n = some n' → n' ^ 2 ≤ b

/-- `PrepareStep` of a real matrix inequality. -/
theorem lmi_direction {v : Env ℝ} (hv : ∀ x, 0 ≤ x → SolveLoop.Spec.SqrtAt v.sqrt x)
    (ht : Lmi.Spec.TriEigenvalues v.tri) {m : Nat} {o : Lmi.Con m ℝ} {w : Lmi.Ws m ℝ}
    (ho : Lmi.Spec.Symmetric o) (hW : w.W.PosDef) {c : ℝ} {ny : Nat} {y : Nat → ℝ} {x' : Item ℝ} {n : Option ℝ} {b : ℝ}
    (hp : (Item.lmi m o w).prepareStep v c ny y = .ok (x', n, b)) :
    x' = .lmi m o ⟨w.W, w.W * -Lmi.Spec.slack o c y⟩ ∧ Direction (.lmi m o w) c y n b ∧
    ∃ (V : Matrix (Fin m) (Fin m) ℝ) (d : Fin m → ℝ), IsUnit V ∧ w.W = V * Vᵀ ∧
      w.W * Lmi.Spec.slack o c y * V = V * diagonal d ∧ b = ∑ i, (1 - d i) ^ 2 ∧
      b = (w.W * Lmi.Spec.slack o c y * (w.W * Lmi.Spec.slack o c y)).trace - 2 * (w.W * Lmi.Spec.slack o c y).trace + m := by
  set S := Lmi.Spec.slack o c y with hS
  have hSt : Sᵀ = S := by
    have := Lmi.slack_transpose ho c y
    rwa [transpose_neg, neg_inj] at this
  cases hq : Lmi.prepareStep v.sqrt v.tri o c 1 ny y w with
  | throws => simp [Item.prepareStep, hq] at hp
  | ub => simp [Item.prepareStep, hq] at hp
  | diverges => simp [Item.prepareStep, hq] at hp
  | ok q =>
    obtain ⟨w', n', b'⟩ := q
    simp only [Item.prepareStep, hq, Outcome.bind_ok, Outcome.ok.injEq, Prod.mk.injEq] at hp
    obtain ⟨rfl, rfl, rfl⟩ := hp
    obtain ⟨h1, -⟩ := Lmi.C58_norm (fun x hx => hv x hx.le) ht o ho c 1 ny y w w' hW n' b' hq
    obtain ⟨-, rfl, -, g⟩ := Lmi.prepareStep_inv hq
    obtain ⟨V, d, e1, e2, e3⟩ := Lmi.exists_basis hW hSt
    have e4 : b' = (w.W * S * (w.W * S)).trace - 2 * (w.W * S).trace + m := by
      rw [g]
      simp only [mul_neg, neg_mul, neg_neg, Matrix.trace_neg, ← hS]
      ring
    have e5 := trace_norm e1 e3
    rw [Fintype.card_fin, ← e4] at e5
    have hb0 : 0 ≤ b' := e5 ▸ sum_nonneg fun i _ => sq_nonneg _
    have hle : ∀ i, (1 - d i) ^ 2 ≤ b' := fun i => by
      rw [e5]
      exact single_le_sum (f := fun i => (1 - d i) ^ 2) (fun _ _ => sq_nonneg _) (mem_univ i)
    refine ⟨rfl, ⟨hb0, fun hb μ hμ => ?_, fun a ha => ?_⟩, V, d, e1, e2, e3, e5, e4⟩
    · obtain ⟨i, rfl⟩ := (Lmi.eigenvalue_iff e1 e3 μ).1 hμ
      rw [← sq_le_one_iff_abs_le_one]
      exact (hle i).trans hb
    · have h2 : a ≤ Real.sqrt b' := h1 a ha _ fun μ hμ => by
        have : MatrixExp.Spec.Eigenvalue (w.W * S) (-μ) := by
          obtain ⟨u, hu, he⟩ := hμ
          refine ⟨u, hu, ?_⟩
          rw [Matrix.mul_neg, Matrix.neg_mulVec] at he
          rw [neg_smul, ← he, neg_neg]
        obtain ⟨i, hi⟩ := (Lmi.eigenvalue_iff e1 e3 _).1 this
        refine Real.abs_le_sqrt ?_
        have := hle i
        rw [hi] at this
        linarith
      have h3 : 0 ≤ a := by
        obtain ⟨-, -, ⟨i, hi⟩, -⟩ := Lmi.prepareStep_inv hq
        rw [ha] at hi
        obtain ⟨x, -, rfl⟩ := Option.map_eq_some_iff.1 hi.symm
        split_ifs <;> exact abs_nonneg _
      calc a ^ 2 ≤ Real.sqrt b' ^ 2 := pow_le_pow_left₀ h3 h2 2
        _ = b' := Real.sq_sqrt hb0

open Hyper HermLmi in
/-- `PrepareStep` of a Hermitian matrix inequality. -/
theorem hermitian_direction {v : Env ℝ} (hv : ∀ x, 0 ≤ x → SolveLoop.Spec.SqrtAt v.sqrt x)
    (ht : Lmi.Spec.TriEigenvalues v.tri) {d m : Nat} {hd : NeZero d} {o : HermLmi.Con d m ℝ} {w : HermLmi.Ws d m ℝ}
    (h4 : d = 1 ∨ d = 2 ∨ d = 4) (ho : HermLmi.Spec.HermitianData o) (hW : HermLmi.Spec.PosDef w.W) {c : ℝ} {ny : Nat}
    {y : Nat → ℝ} {x' : Item ℝ} {n : Option ℝ} {b : ℝ}
    (hp : (Item.hermitian d m hd o w).prepareStep v c ny y = .ok (x', n, b)) :
    ∃ (w' : HermLmi.Ws d m ℝ) (C : HMat d m ℝ), x' = .hermitian d m hd o w' ∧ o.affine = some C ∧ w'.W = w.W ∧
    w'.WS = multiply w.W (scalarMultiply (HermLmi.Spec.slack o.mats C c y) (-1)) ∧
    Direction (.hermitian d m hd o w) c y n b ∧
    ∃ (V : Matrix (Fin d × Fin m) (Fin d × Fin m) ℝ) (l : Fin d × Fin m → ℝ), IsUnit V ∧ lmat w.W = V * Vᵀ ∧
      lmat w.W * lmat (HermLmi.Spec.slack o.mats C c y) * V = V * diagonal l ∧ d * b = ∑ i, (1 - l i) ^ 2 ∧
      (∀ i, (1 - l i) ^ 2 ≤ b) ∧
      d * b = (lmat w.W * lmat (HermLmi.Spec.slack o.mats C c y) *
        (lmat w.W * lmat (HermLmi.Spec.slack o.mats C c y))).trace -
        2 * (lmat w.W * lmat (HermLmi.Spec.slack o.mats C c y)).trace + d * m := by
  have hD := dim_of_assoc h4
  have hd0 : (0 : ℝ) < d := by
    have : 0 < d := by omega
    exact_mod_cast this
  cases hq : HermLmi.prepareStep v.sqrt v.tri (v.start d m) o c 1 ny y w with
  | throws => simp [Item.prepareStep, hq] at hp
  | ub => simp [Item.prepareStep, hq] at hp
  | diverges => simp [Item.prepareStep, hq] at hp
  | ok q =>
    obtain ⟨w', n', b'⟩ := q
    simp only [Item.prepareStep, hq, Outcome.bind_ok, Outcome.ok.injEq, Prod.mk.injEq] at hp
    obtain ⟨rfl, rfl, rfl⟩ := hp
    obtain ⟨h1, -⟩ := HermLmi.C61_norm h4 (fun x hx => hv x hx.le) ht (v.start d m) o ho c 1 ny y w w' hW n' b' hq
    obtain ⟨C, hC, -, g0, g1, g3, g2⟩ := HermLmi.prepareStep_inv hq
    set S := HermLmi.Spec.slack o.mats C c y with hS
    have hSt : (lmat S)ᵀ = lmat S := (hermitian_lmat hD _).1 (HermLmi.hermitian_slack hC ho c y)
    obtain ⟨V, l, e1, e2, e3⟩ := Lmi.exists_basis ((posDef_lmat hD _).1 hW) hSt
    have hWS : lmat w'.WS = -(lmat w.W * lmat S) := by
      rw [g1, lmat_multiply h4, lmat_scalar]
      simp
    have e4 : (d : ℝ) * b' = (lmat w.W * lmat S * (lmat w.W * lmat S)).trace -
        2 * (lmat w.W * lmat S).trace + d * m := by
      rw [g2, ← retr_zero, ← retr_zero, mul_add, mul_add, ← trace_lmat hD, mul_left_comm, ← trace_lmat hD,
        lmat_multiply h4, hWS, neg_mul_neg, Matrix.trace_neg]
      ring
    have e5 := trace_norm e1 e3
    rw [Fintype.card_prod, Fintype.card_fin, Fintype.card_fin, Nat.cast_mul, ← e4] at e5
    have hle : ∀ i, (1 - l i) ^ 2 ≤ b' := fun i => by
      have := multiplicity_le h4 (multiply w.W S) e1 (by rw [lmat_multiply h4]; exact e3) i
      rw [← e5] at this
      exact le_of_mul_le_mul_left this hd0
    have hb0 : 0 ≤ b' := by
      have : 0 ≤ (d : ℝ) * b' := e5 ▸ sum_nonneg fun i _ => sq_nonneg _
      exact nonneg_of_mul_nonneg_right this hd0
    refine ⟨w', C, rfl, hC, g0, g1, ⟨hb0, fun hb C' hC' μ hμ => ?_, fun a ha => ?_⟩, V, l, e1, e2, e3, e5, hle, e4⟩
    · rw [hC] at hC'
      cases hC'
      rw [eigenvalue_lmat, lmat_multiply h4] at hμ
      obtain ⟨i, rfl⟩ := (Lmi.eigenvalue_iff e1 e3 μ).1 hμ
      rw [← sq_le_one_iff_abs_le_one]
      exact (hle i).trans hb
    · have h2 : a ≤ Real.sqrt b' := h1 a ha _ fun μ hμ => by
        rw [eigenvalue_lmat, hWS] at hμ
        have : MatrixExp.Spec.Eigenvalue (lmat w.W * lmat S) (-μ) := by
          obtain ⟨u, hu, he⟩ := hμ
          refine ⟨u, hu, ?_⟩
          rw [Matrix.neg_mulVec] at he
          rw [neg_smul, ← he, neg_neg]
        obtain ⟨i, hi⟩ := (Lmi.eigenvalue_iff e1 e3 _).1 this
        refine Real.abs_le_sqrt ?_
        have := hle i
        rw [hi] at this
        linarith
      have h3 : 0 ≤ a := by
        rw [ha] at g3
        obtain ⟨x, -, rfl⟩ := Option.map_eq_some_iff.1 g3.symm
        split_ifs <;> exact abs_nonneg _
      calc a ^ 2 ≤ Real.sqrt b' ^ 2 := pow_le_pow_left₀ h3 h2 2
        _ = b' := Real.sq_sqrt hb0

/-! ### Two steps -/

/-- What is shown of two full steps of a constraint with `len` variables. -/
def Quadratic (len : Nat) (c : ℝ) (y y' : Nat → ℝ) (s s' : Schur.Sys ℝ) (b b' : ℝ) : Prop :=
  1 / 2 * b' - ∑ j ∈ range len, (y' j - y j) * (res s' len c y' j - res s len c y j) ≤ b ^ 2

/-- Sums of fourth powers. -/
theorem sum_sq_le {ι : Type} [Fintype ι] {f : ι → ℝ} {B : ℝ} (h : ∀ i, f i ^ 2 ≤ B) :
    ∑ i, (f i ^ 2) ^ 2 ≤ B * ∑ i, f i ^ 2 := by
  rw [mul_sum]
  refine sum_le_sum fun i _ => ?_
  rw [sq (f i ^ 2)]
  exact mul_le_mul_of_nonneg_right (h i) (sq_nonneg _)

theorem lmi_quadratic {v : Env ℝ} (hv : ∀ x, 0 ≤ x → SolveLoop.Spec.SqrtAt v.sqrt x)
    (ht : Lmi.Spec.TriEigenvalues v.tri) (hso : ∀ n, MatrixExp.Spec.Solves (v.solve n)) {m len : Nat} {o : Lmi.Con m ℝ}
    {w : Lmi.Ws m ℝ} (hm : o.m = len) (ho : Lmi.Spec.Symmetric o) (hW : w.W.PosDef) {c : ℝ} {y y' : Nat → ℝ}
    {x' x'' z : Item ℝ} {n n' : Option ℝ} {b b' : ℝ}
    (hp : (Item.lmi m o w).prepareStep v c len y = .ok (x', n, b)) (hb : b ≤ 1) (hx : x'.takeStep v 1 = .ok x'')
    (hp' : x''.prepareStep v c len y' = .ok (z, n', b')) {s₀ s₀' s s' : Schur.Sys ℝ} (hr : s₀.rows = len)
    (hs : (Item.lmi m o w).schur v.sqrt s₀ = .ok s) (hr' : s₀'.rows = len) (hs' : x''.schur v.sqrt s₀' = .ok s') :
    Quadratic len c y y' s s' b b' := by
  subst hm
  obtain ⟨rfl, ⟨-, -, -⟩, V, d, e1, e2, e3, e5, -⟩ := lmi_direction hv ht ho hW hp
  simp only [Item.takeStep, Outcome.ok.injEq] at hx
  subst hx
  have hle : ∀ i, (1 - d i) ^ 2 ≤ b := fun i => by
    rw [e5]
    exact single_le_sum (f := fun i => (1 - d i) ^ 2) (fun _ _ => sq_nonneg _) (mem_univ i)
  have hd1 : ∀ i, (1 - d i) ^ 2 ≤ 1 := fun i => (hle i).trans hb
  have hneg : ∀ i, MatrixExp.Spec.p (-(1 * (-d i + 1))) ≠ 0 := fun i =>
    (Lmi.p_pos (by nlinarith [hd1 i])).ne'
  have hconj := Lmi.geodesicUpdate_conj (hso m) (W := w.W) (S := -Lmi.Spec.slack o c y) (d := fun i => -d i)
    (Lmi.slack_transpose ho c y) e1 e2 (by
      rw [Matrix.mul_neg, Matrix.neg_mul, e3]
      ext i j
      simp) 1 1 hneg
  set w' := Lmi.geodesicUpdate (v.solve m) 1 1 ⟨w.W, w.W * -Lmi.Spec.slack o c y⟩ with hw'
  have hfull : ∀ i, Full (1 - d i) (MatrixExp.Spec.p (1 * (-d i + 1)) / MatrixExp.Spec.p (-(1 * (-d i + 1)))) := by
    intro i
    have e : 1 * (-d i + 1) = 1 - d i := by ring
    rw [e]
    exact StepScalar.full_pade ((hd1 i).trans (by norm_num))
  have hW' : w'.W.PosDef := by
    rw [hconj]
    exact (Lmi.posDef_conj e1 _).2 fun i => (hfull i).pos
  obtain ⟨-, -, -, -, -, -, -, -, f5⟩ := lmi_direction hv ht ho hW' hp'
  obtain ⟨⟨t, g1, -, g2⟩, -⟩ := Lmi.C59_schur o ho w.W (Lmi.transpose_of_posDef hW) s₀ hr.ge
  have hs1 : Lmi.schur o w.W true s₀ = .ok s := hs
  rw [hs1, Outcome.ok.injEq] at g1
  subst g1
  obtain ⟨⟨t', g1, -, g3⟩, -⟩ := Lmi.C59_schur o ho w'.W (Lmi.transpose_of_posDef hW') s₀' hr'.ge
  have hs2 : Lmi.schur o w'.W true s₀' = .ok s' := hs'
  rw [hs2, Outcome.ok.injEq] at g1
  subst g1
  have hSt' : (Lmi.Spec.slack o c y')ᵀ = Lmi.Spec.slack o c y' := by
    have := Lmi.slack_transpose ho c y'
    rwa [transpose_neg, neg_inj] at this
  have key := quadratic_trace e1 e2 e3 hconj hSt' hfull hd1
  have hρ := trace_res (A := o.A) (C := o.C) (W := w.W) (m := o.m) (s := s) (δ := 1)
    (fun i hi j hj => by rw [one_mul, g2.G i hi j hj]) (fun i hi => by rw [one_mul, g2.AW i hi])
    (fun i hi => by rw [one_mul, g2.AQc i hi]) (kc := c) (y := y) (S := Lmi.Spec.slack o c y) rfl
  have hρ' := trace_res (A := o.A) (C := o.C) (W := w'.W) (m := o.m) (s := s') (δ := 1)
    (fun i hi j hj => by rw [one_mul, g3.G i hi j hj]) (fun i hi => by rw [one_mul, g3.AW i hi])
    (fun i hi => by rw [one_mul, g3.AQc i hi]) (kc := c) (y := y') (S := Lmi.Spec.slack o c y') rfl
  have hS1 : ∀ u, Lmi.Spec.slack o c u = c • o.C - ∑ j ∈ range o.m, u j • o.A j := fun _ => rfl
  rw [trace_cross (δ := 1) (hS1 y) (hS1 y') hρ hρ', Fintype.card_fin, ← f5] at key
  have h4 := sum_sq_le hle
  rw [← e5] at h4
  unfold Quadratic
  nlinarith

open Hyper HermLmi in
theorem hermitian_quadratic {v : Env ℝ} (hv : ∀ x, 0 ≤ x → SolveLoop.Spec.SqrtAt v.sqrt x)
    (ht : Lmi.Spec.TriEigenvalues v.tri) {d m len : Nat} {hd : NeZero d} {o : HermLmi.Con d m ℝ}
    {w : HermLmi.Ws d m ℝ} (hm : o.mats.length = len) (h4 : d = 1 ∨ d = 2 ∨ d = 4) (ho : HermLmi.Spec.HermitianData o)
    (hW : HermLmi.Spec.PosDef w.W) {c : ℝ} {y y' : Nat → ℝ} {x' x'' z : Item ℝ} {n n' : Option ℝ} {b b' : ℝ}
    (hp : (Item.hermitian d m hd o w).prepareStep v c len y = .ok (x', n, b)) (hb : b ≤ 1)
    (hx : x'.takeStep v 1 = .ok x'') (hp' : x''.prepareStep v c len y' = .ok (z, n', b')) {s₀ s₀' s s' : Schur.Sys ℝ}
    (hr : s₀.rows = len) (hs : (Item.hermitian d m hd o w).schur v.sqrt s₀ = .ok s) (hr' : s₀'.rows = len)
    (hs' : x''.schur v.sqrt s₀' = .ok s') : Quadratic len c y y' s s' b b' := by
  subst hm
  have hD := dim_of_assoc h4
  have hd0 : (0 : ℝ) < d := by
    have : 0 < d := by omega
    exact_mod_cast this
  obtain ⟨w', C, rfl, hC, a1, a2, -, V, l, e1, e2, e3, e5, hle, -⟩ := hermitian_direction hv ht h4 ho hW hp
  simp only [Item.takeStep, Outcome.ok.injEq] at hx
  subst hx
  have hd1 : ∀ i, (1 - l i) ^ 2 ≤ 1 := fun i => (hle i).trans hb
  have hconj := takeStep_conj h4 (w := w') (S := scalarMultiply (HermLmi.Spec.slack o.mats C c y) (-1)) (by rw [a1, a2])
    (V := V) (l := fun i => -l i) (by rw [a1]; exact e2) (by
      rw [a1, lmat_scalar, neg_one_smul, Matrix.mul_neg, Matrix.neg_mul, e3]
      ext i j
      simp) 1 1
  have hpos := HermLmi.C60_step h4 w' (a1 ▸ hW) _
    (HermLmi.hermitian_scalar (HermLmi.hermitian_slack hC ho c y) (-1)) (by rw [a1]; exact a2) 1 1
  set w'' := HermLmi.takeStep 1 1 w' with hw''
  have hfull : ∀ i, Full (1 - l i) ((1 + 1 * (-l i + 1) / 4 + (1 * (-l i + 1)) ^ 2 / 32) ^ 4) := by
    intro i
    have e : 1 * (-l i + 1) = 1 - l i := by ring
    rw [e]
    exact StepScalar.full_taylor (hd1 i)
  obtain ⟨-, C', -, hC', -, -, -, -, -, -, -, -, -, -, f5⟩ := hermitian_direction hv ht h4 ho hpos hp'
  rw [hC] at hC'
  cases hC'
  obtain ⟨⟨t, g1, -, g2⟩, -⟩ := HermLmi.C62_schur hD o ho w.W hW.1 C hC s₀ hr.ge
  have hs1 : HermLmi.schur o w.W true s₀ = .ok s := hs
  rw [hs1, Outcome.ok.injEq] at g1
  subst g1
  obtain ⟨⟨t', g1, -, g3⟩, -⟩ := HermLmi.C62_schur hD o ho w''.W hpos.1 C hC s₀' hr'.ge
  have hs2 : HermLmi.schur o w''.W true s₀' = .ok s' := hs'
  rw [hs2, Outcome.ok.injEq] at g1
  subst g1
  have hAm : ∀ i < o.mats.length, Hyper.Spec.Hermitian (o.mats.getD i fun _ => 0) := by
    intro i hi
    rw [List.getD_eq_getElem?_getD, List.getElem?_eq_getElem hi, Option.getD_some]
    exact ho.1 _ (List.getElem_mem hi)
  have hQ : ∀ W X : HMat d m ℝ, lmat (quadRep W X) = lmat W * lmat X * lmat W := fun W X => by
    rw [quadRep_assoc h4, lmat_multiply h4, lmat_multiply h4]
  have hSt' : (lmat (HermLmi.Spec.slack o.mats C c y'))ᵀ = lmat (HermLmi.Spec.slack o.mats C c y') :=
    (hermitian_lmat hD _).1 (HermLmi.hermitian_slack hC ho c y')
  have key := quadratic_trace e1 e2 e3 hconj hSt' hfull hd1
  have hρ := trace_res (A := fun i => lmat (o.mats.getD i fun _ => 0)) (C := lmat C) (W := lmat w.W)
    (m := o.mats.length) (s := s) (δ := d)
    (fun i hi j hj => by rw [g2.G i hi j hj, inner_lmat hD (hAm i hi) _ h4, hQ])
    (fun i hi => by rw [g2.AW i hi, inner_lmat hD (hAm i hi) _ h4])
    (fun i hi => by rw [g2.AQc i hi, inner_lmat hD (hAm i hi) _ h4, hQ]) (kc := c) (y := y)
    (S := lmat (HermLmi.Spec.slack o.mats C c y)) (lmat_slack _ _ _ _)
  have hρ' := trace_res (A := fun i => lmat (o.mats.getD i fun _ => 0)) (C := lmat C) (W := lmat w''.W)
    (m := o.mats.length) (s := s') (δ := d)
    (fun i hi j hj => by rw [g3.G i hi j hj, inner_lmat hD (hAm i hi) _ h4, hQ])
    (fun i hi => by rw [g3.AW i hi, inner_lmat hD (hAm i hi) _ h4])
    (fun i hi => by rw [g3.AQc i hi, inner_lmat hD (hAm i hi) _ h4, hQ]) (kc := c) (y := y')
    (S := lmat (HermLmi.Spec.slack o.mats C c y')) (lmat_slack _ _ _ _)
  rw [trace_cross (δ := d) (lmat_slack _ _ _ _) (lmat_slack _ _ _ _) hρ hρ', Fintype.card_prod, Fintype.card_fin,
    Fintype.card_fin, Nat.cast_mul, ← f5] at key
  have h5 := sum_sq_le hle
  rw [← e5] at h5
  unfold Quadratic
  refine le_of_mul_le_mul_left ?_ hd0
  linarith

end Verif.MatrixCentering
