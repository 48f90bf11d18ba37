import Verif.Lemmas.Iteration

/-!
# Lemmas for C74: the matrix of the linear system
-/

namespace Verif.Iteration

open Finset Dual Gap.Spec Spec

/-- The quadratic form of a symmetric matrix whose lower triangle is given. -/
noncomputable def form (len : Nat) (G : Nat → Nat → ℝ) (z : Nat → ℝ) : ℝ :=
  ∑ i ∈ range len, z i * ∑ j ∈ range len, G (max i j) (min i j) * z j

theorem lower {n : Nat} {G F : Nat → Nat → ℝ} (h : ∀ i < n, ∀ j ≤ i, G i j = F i j)
    (hF : ∀ i < n, ∀ j < n, F i j = F j i) {i j : Nat} (hi : i < n) (hj : j < n) :
    G (max i j) (min i j) = F i j := by
  rcases le_total j i with hij | hij
  · rw [max_eq_left hij, min_eq_right hij, h i hi j hij]
  · rw [max_eq_right hij, min_eq_left hij, h j hj i hij, hF j hj i hi]

/-- A Gram matrix. -/
theorem form_gram {n : Nat} {G F : Nat → Nat → ℝ} (h : ∀ i < n, ∀ j ≤ i, G i j = F i j)
    (hF : ∀ i < n, ∀ j < n, F i j = F j i) (z : Nat → ℝ) :
    form n G z = ∑ i ∈ range n, ∑ j ∈ range n, z i * F i j * z j := by
  unfold form
  refine sum_congr rfl fun i hi => ?_
  rw [mul_sum]
  refine sum_congr rfl fun j hj => ?_
  rw [lower h hF (mem_range.1 hi) (mem_range.1 hj)]
  ring

/-! ### Second-order cones -/

theorem tr_self {B : (Nat → ℝ) → (Nat → ℝ) → ℝ} (hB : Spin.Spec.IsForm B) (w a : Soc.El ℝ) :
    (w.h ^ 2 + B w.t w.t) * Spin.Spec.tr B a (Spin.Spec.quad B w a) =
      2 * (((w.h ^ 2 + B w.t w.t) * a.h + 2 * w.h * B w.t a.t) ^ 2 +
        (w.h ^ 2 - B w.t w.t) * ((w.h ^ 2 + B w.t w.t) * B a.t a.t - 2 * B w.t a.t ^ 2)) := by
  simp only [Soc.tr_eq, Spin.quad_eq hB, hB.comb_right, hB.symm a.t w.t]
  ring

theorem tr_self_nonneg {B : (Nat → ℝ) → (Nat → ℝ) → ℝ} (hB : Spin.Spec.IsForm B) {w : Soc.El ℝ}
    (hw : Spin.Spec.Interior B w) (a : Soc.El ℝ) :
    0 ≤ Spin.Spec.tr B a (Spin.Spec.quad B w a) ∧
      (Spin.Spec.tr B a (Spin.Spec.quad B w a) = 0 → a.h = 0 ∧ B a.t a.t = 0) := by
  obtain ⟨h1, h2⟩ := hw
  have hω := hB.nonneg w.t
  have hα := hB.nonneg a.t
  have hcs := hB.cauchy w.t a.t
  have e := tr_self hB w a
  have hp : 0 < w.h ^ 2 + B w.t w.t := by positivity
  have hd : 0 < w.h ^ 2 - B w.t w.t := by linarith
  have hk : (w.h ^ 2 - B w.t w.t) * B a.t a.t ≤ (w.h ^ 2 + B w.t w.t) * B a.t a.t - 2 * B w.t a.t ^ 2 := by
    nlinarith
  have hk0 : 0 ≤ (w.h ^ 2 - B w.t w.t) * B a.t a.t := mul_nonneg hd.le hα
  constructor
  · have : 0 ≤ (w.h ^ 2 + B w.t w.t) * Spin.Spec.tr B a (Spin.Spec.quad B w a) := by
      rw [e]
      have := mul_nonneg hd.le (hk0.trans hk)
      positivity
    exact nonneg_of_mul_nonneg_right this hp
  · intro h0
    rw [h0, mul_zero] at e
    have s1 := sq_nonneg ((w.h ^ 2 + B w.t w.t) * a.h + 2 * w.h * B w.t a.t)
    have s2 := mul_nonneg hd.le (hk0.trans hk)
    have s3 : (w.h ^ 2 - B w.t w.t) * ((w.h ^ 2 + B w.t w.t) * B a.t a.t - 2 * B w.t a.t ^ 2) = 0 := by linarith
    have s4 : (w.h ^ 2 + B w.t w.t) * B a.t a.t - 2 * B w.t a.t ^ 2 = 0 :=
      (mul_eq_zero.1 s3).resolve_left hd.ne'
    have hα0 : B a.t a.t = 0 := by
      have : (w.h ^ 2 - B w.t w.t) * B a.t a.t ≤ 0 := by rw [s4] at hk; exact hk
      nlinarith
    have hb0 : B w.t a.t = 0 := by
      rw [hα0, mul_zero] at hcs
      exact pow_eq_zero_iff (two_ne_zero) |>.1 (le_antisymm hcs (sq_nonneg _))
    have s5 : (w.h ^ 2 + B w.t w.t) * a.h + 2 * w.h * B w.t a.t = 0 := by
      have : ((w.h ^ 2 + B w.t w.t) * a.h + 2 * w.h * B w.t a.t) ^ 2 = 0 := by linarith
      exact pow_eq_zero_iff (two_ne_zero) |>.1 this
    rw [hb0, mul_zero, add_zero] at s5
    exact ⟨(mul_eq_zero.1 s5).resolve_left hp.ne', hα0⟩

/-- A combination of elements. -/
def comb (A : Nat → Soc.El ℝ) (m : Nat) (z : Nat → ℝ) : Soc.El ℝ :=
  ⟨∑ j ∈ range m, (A j).h * z j, fun i => ∑ j ∈ range m, (A j).t i * z j⟩

theorem tr_comb {B : (Nat → ℝ) → (Nat → ℝ) → ℝ} (hB : Spin.Spec.IsForm B) (A : Nat → Soc.El ℝ) (m : Nat)
    (z : Nat → ℝ) (x : Soc.El ℝ) :
    Spin.Spec.tr B (comb A m z) x = ∑ j ∈ range m, z j * Spin.Spec.tr B (A j) x := by
  induction m with
  | zero =>
    simp only [comb, range_zero, sum_empty, Soc.tr_eq, hB.zero_left]
    ring
  | succ m ih =>
    rw [sum_range_succ, ← ih]
    have e : (comb A (m + 1) z).t = fun i => (comb A m z).t i + z m * (A m).t i := by
      funext i
      simp only [comb, sum_range_succ]
      ring
    simp only [Soc.tr_eq, e, hB.add, hB.smul]
    simp only [comb, sum_range_succ]
    ring

theorem spin_form {B : (Nat → ℝ) → (Nat → ℝ) → ℝ} (hB : Spin.Spec.IsForm B) {m : Nat} {A : Nat → Soc.El ℝ}
    {w : Soc.El ℝ} {G : Nat → Nat → ℝ}
    (hG : ∀ i < m, ∀ j < m, G i j = Spin.Spec.tr B (A i) (Spin.Spec.quad B w (A j))) (z : Nat → ℝ) :
    form m G z = Spin.Spec.tr B (comb A m z) (Spin.Spec.quad B w (comb A m z)) := by
  rw [form_gram (F := fun i j => Spin.Spec.tr B (A i) (Spin.Spec.quad B w (A j)))
    (fun i hi j hj => hG i hi j (by omega)) (fun i _ j _ => by
      rw [← Spin.tr_quad hB, Spin.tr_comm hB]), tr_comb hB]
  refine sum_congr rfl fun i _ => ?_
  rw [← Spin.tr_quad hB, Spin.tr_comm hB, tr_comb hB, mul_sum]
  refine sum_congr rfl fun j _ => ?_
  rw [Spin.tr_comm hB, Spin.tr_quad hB]
  ring

/-! ### Matrix inequalities -/

theorem trace_self {ι : Type} [Fintype ι] [DecidableEq ι] {W S : Matrix ι ι ℝ} (hW : W.PosDef)
    (hS : S.transpose = S) :
    0 ≤ (S * (W * S * W)).trace ∧ ((S * (W * S * W)).trace = 0 → S = 0) := by
  obtain ⟨V, d, hV, hVW, hd⟩ := Lmi.exists_basis hW hS
  have hD : V.transpose * S * V = Matrix.diagonal d := by
    have : V * (V.transpose * S * V) = V * Matrix.diagonal d := by
      rw [← hd, hVW]
      simp only [Matrix.mul_assoc]
    exact hV.mul_left_cancel this
  have e : (S * (W * S * W)).trace = ∑ i, d i * d i := by
    have e1 : W * S * W = V * Matrix.diagonal d * V.transpose := by
      calc W * S * W = W * S * (V * V.transpose) := by rw [← hVW]
        _ = V * Matrix.diagonal d * V.transpose := by rw [← Matrix.mul_assoc, hd]
    rw [e1, ← Matrix.mul_assoc, Matrix.trace_mul_comm, ← Matrix.mul_assoc, ← Matrix.mul_assoc, hD,
      Matrix.diagonal_mul_diagonal, Matrix.trace_diagonal]
  rw [e]
  refine ⟨sum_nonneg fun i _ => mul_self_nonneg _, fun h0 => ?_⟩
  have hd0 : d = 0 := by
    funext i
    exact mul_self_eq_zero.1 ((sum_eq_zero_iff_of_nonneg fun i _ => mul_self_nonneg _).1 h0 i (mem_univ i))
  rw [hd0] at hD
  have h1 : V.transpose * S * V = 0 := by
    rw [hD]
    exact Matrix.diagonal_zero
  have hVt : IsUnit V.transpose := by
    rw [Matrix.isUnit_iff_isUnit_det, Matrix.det_transpose, ← Matrix.isUnit_iff_isUnit_det]
    exact hV
  have h2 : V.transpose * S = 0 := hV.mul_right_cancel (by rw [h1, Matrix.zero_mul])
  exact hVt.mul_left_cancel (by rw [h2, Matrix.mul_zero])

theorem trace_form {ι : Type} [Fintype ι] {m : Nat} {A : Nat → Matrix ι ι ℝ} {W : Matrix ι ι ℝ}
    {G : Nat → Nat → ℝ} {δ : ℝ} (hG : ∀ i < m, ∀ j ≤ i, δ * G i j = (A i * (W * A j * W)).trace) (z : Nat → ℝ) :
    δ * form m G z =
      ((∑ j ∈ range m, z j • A j) * (W * (∑ j ∈ range m, z j • A j) * W)).trace := by
  have e : δ * form m G z = form m (fun i j => δ * G i j) z := by
    unfold form
    rw [mul_sum]
    refine sum_congr rfl fun i _ => ?_
    rw [mul_left_comm, mul_sum]
    congr 1
    exact sum_congr rfl fun j _ => by ring
  rw [e, form_gram (F := fun i j => (A i * (W * A j * W)).trace) hG fun i _ j _ => Gap.trace_swap _ _ _]
  simp only [Matrix.sum_mul, Matrix.mul_sum, Matrix.trace_sum, Matrix.smul_mul, Matrix.mul_smul, Matrix.trace_smul,
    smul_eq_mul, Finset.mul_sum]
  rw [sum_comm]
  exact sum_congr rfl fun j _ => sum_congr rfl fun i _ => by ring

/-! ### All constraints -/

open HermLmi Hyper in
/-- The system of a constraint: its matrix is positive semidefinite, and definite up to displacements that change
nothing. -/
theorem item_form {sqrt : ℝ → ℝ} (hv : ∀ x, 0 ≤ x → SolveLoop.Spec.SqrtAt sqrt x) {e : Entry ℝ} {N : Nat}
    (hg : Gap.Spec.Good e N) (hu : Usable e.item) (s₀ : Schur.Sys ℝ) (hr : s₀.rows = e.vars.length) :
    ∃ s, e.item.schur sqrt s₀ = .ok s ∧ ∀ z, 0 ≤ form e.vars.length s.G z ∧
      (form e.vars.length s.G z = 0 → Insensitive z e.item) := by
  obtain ⟨vars, x⟩ := e
  obtain ⟨-, -, h⟩ := hg
  cases x with
  | linear o w =>
    obtain ⟨hm, hw⟩ := h
    simp only at hr ⊢
    rw [← hm] at hr ⊢
    obtain ⟨t, h1, -, h2, -⟩ := Linear.C35_schur_init o w.W s₀ hr.ge
    refine ⟨t, h1, fun z => ?_⟩
    have e : form o.m t.G z = ∑ r ∈ range o.n, w.W r ^ 2 * (∑ j ∈ range o.m, o.A r j * z j) ^ 2 := by
      rw [form_gram (F := fun i j => ∑ r ∈ range o.n, o.A r i * w.W r ^ 2 * o.A r j)
        (fun i hi j hj => by rw [h2 i (by omega) j (by omega), if_pos (by omega)])
        (fun i _ j _ => sum_congr rfl fun r _ => by ring)]
      have e1 : ∀ r, w.W r ^ 2 * (∑ j ∈ range o.m, o.A r j * z j) ^ 2 =
          ∑ i ∈ range o.m, ∑ j ∈ range o.m, z i * (o.A r i * w.W r ^ 2 * o.A r j) * z j := by
        intro r
        rw [pow_two (∑ j ∈ range o.m, o.A r j * z j), sum_mul_sum, mul_sum]
        refine sum_congr rfl fun i _ => ?_
        rw [mul_sum]
        exact sum_congr rfl fun j _ => by ring
      simp only [e1]
      rw [sum_comm (s := range o.n)]
      refine sum_congr rfl fun i _ => ?_
      rw [sum_comm]
      refine sum_congr rfl fun j _ => ?_
      rw [mul_sum, sum_mul]
    rw [e]
    refine ⟨sum_nonneg fun r _ => by positivity, fun h0 r hr => ?_⟩
    have := (sum_eq_zero_iff_of_nonneg fun r _ => by positivity).1 h0 r (mem_range.2 hr)
    have hp := hw r hr
    exact pow_eq_zero_iff two_ne_zero |>.1 ((mul_eq_zero.1 this).resolve_left (by positivity))
  | lmi m o w =>
    obtain ⟨hm, ho, hW⟩ := h
    simp only at hr ⊢
    rw [← hm] at hr ⊢
    obtain ⟨⟨t, e1, -, e2⟩, -⟩ := Lmi.C59_schur o ho w.W (Lmi.transpose_of_posDef hW) s₀ hr.ge
    refine ⟨t, e1, fun z => ?_⟩
    have e := trace_form (δ := 1) (A := o.A) (W := w.W) (G := t.G) (fun i hi j hj => by rw [one_mul, e2.G i hi j hj]) z
    rw [one_mul] at e
    rw [e]
    refine trace_self hW ?_
    rw [Matrix.transpose_sum]
    exact sum_congr rfl fun j hj => by rw [Matrix.transpose_smul, ho.1 j (mem_range.1 hj)]
  | hermitian d m hd o w =>
    obtain ⟨hm, h4, ho, hW⟩ := h
    obtain ⟨C, hC⟩ := hu
    simp only at hr ⊢
    rw [← hm] at hr ⊢
    have hD := Hyper.dim_of_assoc h4
    obtain ⟨⟨t, e1, -, e2⟩, -⟩ := HermLmi.C62_schur hD o ho w.W hW.1 C hC s₀ hr.ge
    refine ⟨t, e1, fun z => ?_⟩
    have hAm : ∀ i < o.mats.length, Hyper.Spec.Hermitian (o.mats.getD i fun _ => 0) := by
      intro i hi
      rw [List.getD_eq_getElem?_getD, List.getElem?_eq_getElem hi, Option.getD_some]
      exact ho.1 _ (List.getElem_mem hi)
    have hd0 : (0 : ℝ) < d := by
      have : 0 < d := by omega
      exact_mod_cast this
    have e := trace_form (δ := d) (A := fun i => lmat (o.mats.getD i fun _ => 0)) (W := lmat w.W) (G := t.G)
      (fun i hi j hj => by
        rw [e2.G i hi j hj, Gap.inner_lmat hD (hAm i hi) _ h4, Hyper.quadRep_assoc h4, lmat_multiply h4,
          lmat_multiply h4]) z
    obtain ⟨f1, f2⟩ := trace_self ((posDef_lmat hD _).1 hW)
      (S := ∑ j ∈ range o.mats.length, z j • lmat (o.mats.getD j fun _ => 0)) (by
        rw [Matrix.transpose_sum]
        exact sum_congr rfl fun j hj => by
          rw [Matrix.transpose_smul, (hermitian_lmat hD _).1 (hAm j (mem_range.1 hj))])
    rw [← e] at f1 f2
    refine ⟨nonneg_of_mul_nonneg_right f1 hd0, fun h0 => ?_⟩
    have := f2 (by rw [h0, mul_zero])
    have hz : lmat (HermLmi.Spec.slack o.mats C 0 z) = lmat fun _ => 0 := by
      rw [Gap.lmat_slack, this]
      ext p q
      simp [lmat]
    have hz := lmat_injective hD hz
    intro c
    have hc := congrFun hz c
    ext i j
    have hij := congrFun (congrFun hc i) j
    simpa [HermLmi.Spec.slack, Matrix.sum_apply] using hij
  | octonion m o w => exact absurd h id
  | soc o w =>
    obtain ⟨hm, ho, hW⟩ := h
    simp only at hr ⊢
    rw [← hm] at hr ⊢
    have hB := Soc.dot_form (R := ℝ) o.n
    obtain ⟨⟨t, e1, -, e2⟩, -⟩ := Soc.C37_schur hv o ho w.W ⟨hW.1.le, hW.2.le⟩ s₀ hr
    refine ⟨t, e1, fun z => ?_⟩
    rw [spin_form hB e2.G z]
    obtain ⟨f1, f2⟩ := tr_self_nonneg hB hW (comb (Soc.col o.A) o.m z)
    refine ⟨f1, fun h0 => ?_⟩
    obtain ⟨g1, g2⟩ := f2 h0
    intro i hi
    cases i with
    | zero => exact g1
    | succ i =>
      have := (sum_eq_zero_iff_of_nonneg fun r _ => mul_self_nonneg _).1 g2 i (mem_range.2 (by omega))
      exact mul_self_eq_zero.1 this
  | quad o w =>
    obtain ⟨hm, ho, hB, hW⟩ := h
    simp only at hr ⊢
    rw [← hm] at hr ⊢
    obtain ⟨t, e1, -, e2⟩ := QuadCone.C37_schur_partial o ho hB w.W s₀ hr
    refine ⟨t, e1, fun z => ?_⟩
    rw [spin_form hB e2.G z]
    exact tr_self_nonneg hB hW (comb o.A o.m z)
  | equality o => exact hu.elim
  | cost m Q =>
    obtain ⟨hm, hQ⟩ := h
    simp only at hr ⊢
    rw [← hm] at hr ⊢
    obtain ⟨t, -, e1, -, e2, -⟩ := Equality.C40_cost m Q s₀ hr.ge
    refine ⟨t, e1, fun z => ?_⟩
    have e : form m t.G z = ∑ i ∈ range m, z i * ∑ j ∈ range m, Q i j * z j := by
      rw [form_gram (F := Q) (fun i hi j hj => by rw [e2, if_pos (by omega)]) (fun i hi j hj => hQ.1 i hi j hj)]
      exact sum_congr rfl fun i _ => by rw [mul_sum]; exact sum_congr rfl fun j _ => by ring
    rw [e]
    exact ⟨hQ.2 z, id⟩

end Verif.Iteration
