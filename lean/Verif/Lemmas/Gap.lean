import Verif.Lemmas.DualVariables
import Verif.Lemmas.GapSpin
import Verif.Props.QuadCone
import Verif.Spec.Gap

/-!
# Lemmas on feasible and almost optimal points
-/

namespace Verif.Gap

open Finset Dual Spec

/-- The image of the dual point of a Newton step, from the linear system: entry `j` of
`2 A W - k A Q c + G y`. -/
noncomputable def res (s : Schur.Sys ℝ) (len : Nat) (kc : ℝ) (y : Nat → ℝ) (j : Nat) : ℝ :=
  2 * s.AW j - kc * s.AQc j + ∑ i ∈ range len, s.G (max j i) (min j i) * y i

/-- What is shown for every constraint. -/
def ItemGap (x : Item ℝ) (len : Nat) (s : Schur.Sys ℝ) (kc : ℝ) (y : Nat → ℝ) (b : ℝ) : Prop :=
  Sat (fun j => y j / kc) x ∧ ∀ z, Sat z x →
    ∑ j ∈ range len, (z j - y j / kc) * res s len kc y j ≤
      (x.rank - b) / kc + kc * (quadCost z x - quadCost (fun j => y j / kc) x)

/-- Weak duality in one cone. -/
theorem cone_gap {len : Nat} {T y z : Nat → ℝ} {kc cx φ ψ : ℝ} (hk : 0 < kc)
    (h1 : cx - ∑ j ∈ range len, z j * T j = φ) (h2 : kc * cx - ∑ j ∈ range len, y j * T j = ψ)
    (hφ : 0 ≤ φ) : ∑ j ∈ range len, (z j - y j / kc) * T j ≤ ψ / kc := by
  have e : ∑ j ∈ range len, (z j - y j / kc) * T j =
      ∑ j ∈ range len, z j * T j - (∑ j ∈ range len, y j * T j) / kc := by
    rw [sum_div, ← sum_sub_distrib]
    exact sum_congr rfl fun j _ => by ring
  have e2 : (∑ j ∈ range len, y j * T j) / kc = cx - ψ / kc := by
    field_simp
    linarith
  rw [e, e2]
  linarith

/-- The residual of a linear inequality. -/
theorem linear_res {sqrt : ℝ → ℝ} {o : Linear.Con ℝ} {w : Linear.Ws ℝ} {s₀ s : Schur.Sys ℝ} (hr : s₀.rows = o.m)
    (hs : (Item.linear o w).schur sqrt s₀ = .ok s) (kc : ℝ) (y : Nat → ℝ) :
    ∀ j < o.m, res s o.m kc y j =
      ∑ r ∈ range o.n, o.A r j * (2 * w.W r - w.W r ^ 2 * Linear.Spec.slack o kc y r) := by
  obtain ⟨t', e1, e2, e3, e4, e5⟩ := Linear.C35_schur_init o w.W s₀ hr.ge
  have hs' : Linear.schur o w.W true s₀ = .ok s := hs
  rw [hs'] at e1
  simp only [Outcome.ok.injEq] at e1
  subst e1
  intro j hj
  unfold res
  rw [e4 j (by omega), if_pos hj, e5 j (by omega), if_pos hj, mul_sum, mul_sum]
  have hG : ∀ i ∈ range o.m, s.G (max j i) (min j i) * y i =
      ∑ r ∈ range o.n, o.A r j * w.W r ^ 2 * o.A r i * y i := by
    intro i hi
    have hi := mem_range.1 hi
    rw [e3 _ (by omega) _ (by omega), if_pos (by omega), sum_mul]
    refine sum_congr rfl fun r _ => ?_
    rcases le_total i j with h | h
    · rw [max_eq_left h, min_eq_right h]
    · rw [max_eq_right h, min_eq_left h]
      ring
  rw [sum_congr rfl hG, sum_comm, ← sum_sub_distrib, ← sum_add_distrib]
  refine sum_congr rfl fun r _ => ?_
  have : ∑ i ∈ range o.m, o.A r j * w.W r ^ 2 * o.A r i * y i =
      o.A r j * w.W r ^ 2 * ∑ i ∈ range o.m, o.A r i * y i := by
    rw [mul_sum]
    exact sum_congr rfl fun i _ => by ring
  rw [this]
  unfold Linear.Spec.slack
  ring

theorem linear_gap {v : Env ℝ} {o : Linear.Con ℝ} {w : Linear.Ws ℝ} {len : Nat} (hm : o.m = len)
    (hw : ∀ r < o.n, 0 < w.W r) {s₀ s : Schur.Sys ℝ} (hr : s₀.rows = len)
    (hs : (Item.linear o w).schur v.sqrt s₀ = .ok s) {kc : ℝ} (hk : 0 < kc) (y : Nat → ℝ)
    {x' : Item ℝ} {n : Option ℝ} {b : ℝ} (hp : (Item.linear o w).prepareStep v kc len y = .ok (x', n, b))
    {A : ℝ} (hA : A ≤ 1) (hn : ∀ n', n = some n' → n' ≤ A) :
    ItemGap (.linear o w) len s kc y b := by
  subst hm
  obtain ⟨t', e1, e2, e3, e4, e5⟩ := Linear.C35_schur_init o w.W s₀ hr.ge
  have hs' : Linear.schur o w.W true s₀ = .ok s := hs
  rw [hs'] at e1
  simp only [Outcome.ok.injEq] at e1
  subst e1
  have hn0 : 0 < o.n := by
    rcases Nat.eq_zero_or_pos o.n with h | h
    · simp [Item.prepareStep, Linear.prepareStep, Linear.negativeSlack, h] at hp
    · exact h
  obtain ⟨w', a, b', f1, f2, f3, -⟩ := Linear.C35_step v.exp o hn0 (opt := ⟨false, kc, 1, 1⟩) rfl
    le_rfl y w
  simp only [Item.prepareStep, f1, Outcome.bind_ok, Outcome.ok.injEq, Prod.mk.injEq] at hp
  obtain ⟨-, rfl, rfl⟩ := hp
  have ha : a ≤ 1 := (hn a rfl).trans hA
  simp only at f2 f3
  have hd : ∀ r < o.n, |1 - w.W r * Linear.Spec.slack o kc y r| ≤ 1 := fun r hr => (f2.2 r hr).trans ha
  have hT := linear_res hr hs kc y
  have hS : ∀ r < o.n, 0 ≤ Linear.Spec.slack o kc y r ∧
      0 ≤ 2 * w.W r - w.W r ^ 2 * Linear.Spec.slack o kc y r := by
    intro r hr
    have h1 := abs_le.1 (hd r hr)
    have h2 := hw r hr
    refine ⟨?_, ?_⟩
    · exact nonneg_of_mul_nonneg_right (by linarith : 0 ≤ w.W r * Linear.Spec.slack o kc y r) h2
    · have h3 : 0 ≤ w.W r * (2 - w.W r * Linear.Spec.slack o kc y r) :=
        mul_nonneg h2.le (by linarith)
      nlinarith [h3]
  refine ⟨fun r hr => ?_, fun z hz => ?_⟩
  · have := (hS r hr).1
    unfold Linear.Spec.slack at this
    have e : ∑ j ∈ range o.m, o.A r j * (y j / kc) = (∑ j ∈ range o.m, o.A r j * y j) / kc := by
      rw [sum_div]
      exact sum_congr rfl fun j _ => by ring
    rw [e, div_le_iff₀ hk]
    linarith
  · simp only [quadCost, sub_self, mul_zero, add_zero, Item.rank]
    have hcomb : ∀ (u : Nat → ℝ), ∑ j ∈ range o.m, u j * res s o.m kc y j =
        ∑ r ∈ range o.n, (∑ j ∈ range o.m, o.A r j * u j) *
          (2 * w.W r - w.W r ^ 2 * Linear.Spec.slack o kc y r) := by
      intro u
      rw [sum_congr rfl fun j hj => by rw [hT j (mem_range.1 hj), mul_sum], sum_comm]
      refine sum_congr rfl fun r _ => ?_
      rw [sum_mul]
      exact sum_congr rfl fun j _ => by ring
    refine cone_gap (cx := ∑ r ∈ range o.n, o.c r * (2 * w.W r - w.W r ^ 2 * Linear.Spec.slack o kc y r))
      hk rfl ?_ ?_
    · rw [hcomb, mul_sum, ← sum_sub_distrib, f3]
      have : ((o.n : Nat) : ℝ) = ∑ r ∈ range o.n, (1 : ℝ) := by simp
      rw [this, ← sum_sub_distrib]
      refine sum_congr rfl fun r _ => ?_
      have e : kc * (o.c r * (2 * w.W r - w.W r ^ 2 * Linear.Spec.slack o kc y r)) -
          (∑ j ∈ range o.m, o.A r j * y j) * (2 * w.W r - w.W r ^ 2 * Linear.Spec.slack o kc y r) =
          Linear.Spec.slack o kc y r * (2 * w.W r - w.W r ^ 2 * Linear.Spec.slack o kc y r) := by
        unfold Linear.Spec.slack
        ring
      rw [e]
      unfold Linear.Spec.dir
      ring
    · rw [hcomb, ← sum_sub_distrib]
      refine sum_nonneg fun r hr => ?_
      have hr := mem_range.1 hr
      rw [← sub_mul]
      exact mul_nonneg (sub_nonneg.2 (hz r hr)) (hS r hr).2

/-- Quadratic cones, in terms of the form. -/
theorem spin_gap {B : (Nat → ℝ) → (Nat → ℝ) → ℝ} (hB : Spin.Spec.IsForm B) {m : Nat}
    {A : Nat → Soc.El ℝ} {c w : Soc.El ℝ} {s : Schur.Sys ℝ}
    (hc : Soc.Spec.Contributes B m A c w s.G s.AW s.AQc s.wc s.cQc) {kc : ℝ} (hk : 0 < kc) (y : Nat → ℝ)
    {zz d : Soc.El ℝ} {a b : ℝ} (hp : Soc.Spec.Prepared B w (Spin.slackOf c A m kc y) zz d a b)
    (ha : a ≤ 1) :
    Spin.Spec.Cone B (Spin.slackOf c A m 1 fun j => y j / kc) ∧
    ∀ z, Spin.Spec.Cone B (Spin.slackOf c A m 1 z) →
      ∑ j ∈ range m, (z j - y j / kc) * res s m kc y j ≤ (2 - b) / kc := by
  obtain ⟨h1, h2, h3⟩ := Spin.near hB hp ha
  set S := Spin.slackOf c A m kc y with hS
  have hT : ∀ j < m, res s m kc y j = Spin.Spec.tr B (A j) (Spin.dualPoint B w S) := by
    intro j hj
    unfold res Spin.dualPoint
    rw [Spin.tr_comm hB, Spin.tr_add hB, Spin.tr_smul hB, Spin.tr_smul hB, Spin.tr_quad hB, hS,
      Spin.tr_slack hB, Spin.tr_comm hB w, Spin.tr_comm hB c, hc.AW j hj, hc.AQc j hj,
      Spin.tr_quad hB]
    have : ∑ i ∈ range m, s.G (max j i) (min j i) * y i =
        ∑ i ∈ range m, y i * Spin.Spec.tr B (A i) (Spin.Spec.quad B w (A j)) := by
      refine sum_congr rfl fun i hi => ?_
      have hi := mem_range.1 hi
      rw [mul_comm, hc.G _ (by omega) _ (by omega)]
      rcases le_total i j with h | h
      · rw [max_eq_left h, min_eq_right h, ← Spin.tr_quad hB, Spin.tr_comm hB]
      · rw [max_eq_right h, min_eq_left h]
    rw [this]
    ring
  refine ⟨?_, fun z hz => ?_⟩
  · have := Spin.cone_scale hB h1 (inv_nonneg.2 hk.le)
    refine Spin.cone_congr hB ?_ this
    have e : Spin.Spec.smul kc⁻¹ S = Spin.slackOf c A m 1 fun j => y j / kc := by
      rw [hS]
      unfold Spin.Spec.smul Spin.slackOf
      have hk' := hk.ne'
      congr 1
      · rw [mul_sub, mul_sum]
        congr 1
        · field_simp
        · exact sum_congr rfl fun j _ => by ring
      · funext i
        rw [mul_sub, mul_sum]
        congr 1
        · field_simp
        · exact sum_congr rfl fun j _ => by ring
    rw [e]
    exact Spin.Spec.Same.refl _
  · have hcomb : ∀ u : Nat → ℝ, ∑ j ∈ range m, u j * res s m kc y j =
        ∑ j ∈ range m, u j * Spin.Spec.tr B (A j) (Spin.dualPoint B w S) := fun u =>
      sum_congr rfl fun j hj => by rw [hT j (mem_range.1 hj)]
    have e1 := Spin.tr_slack hB c A m 1 z (Spin.dualPoint B w S)
    have e2 := Spin.tr_slack hB c A m kc y (Spin.dualPoint B w S)
    refine cone_gap (cx := Spin.Spec.tr B c (Spin.dualPoint B w S)) hk rfl ?_ ?_
    · rw [hcomb, ← e2, ← hS, Spin.tr_comm hB, h3]
    · rw [hcomb]
      rw [one_mul] at e1
      rw [← e1]
      exact Spin.tr_nonneg hB hz h2

theorem soc_gap {v : Env ℝ} (hv : ∀ x, 0 ≤ x → SolveLoop.Spec.SqrtAt v.sqrt x) {o : Soc.Con ℝ}
    {w : Soc.Ws ℝ} {len : Nat} (hm : o.m = len) (ho : Soc.Spec.Complete o)
    (hw : Spin.Spec.Interior (Soc.dot o.n) w.W) {s₀ s : Schur.Sys ℝ} (hr : s₀.rows = len)
    (hs : (Item.soc o w).schur v.sqrt s₀ = .ok s) {kc : ℝ} (hk : 0 < kc) (y : Nat → ℝ)
    {x' : Item ℝ} {n : Option ℝ} {b : ℝ} (hp : (Item.soc o w).prepareStep v kc len y = .ok (x', n, b))
    {A : ℝ} (hA : A ≤ 1) (hn : ∀ n', n = some n' → n' ≤ A) :
    ItemGap (.soc o w) len s kc y b := by
  subst hm
  obtain ⟨⟨t, e1, -, e2⟩, -⟩ := Soc.C37_schur hv o ho w.W ⟨hw.1.le, hw.2.le⟩ s₀ hr
  have hs' : Soc.schur v.sqrt o w.W true s₀ = .ok s := hs
  rw [hs'] at e1
  simp only [Outcome.ok.injEq] at e1
  subst e1
  obtain ⟨w', a, b', f1, f2, -⟩ := Soc.C36_step (exp := fun _ => 1) hv (fun _ => one_pos) o ho kc y 1 w hw
  simp only [Item.prepareStep, f1, Outcome.bind_ok, Outcome.ok.injEq, Prod.mk.injEq] at hp
  obtain ⟨-, rfl, rfl⟩ := hp
  obtain ⟨g1, g2⟩ := spin_gap (Soc.dot_form o.n) e2 hk y f2 ((hn a rfl).trans hA)
  refine ⟨g1, fun z hz => ?_⟩
  simp only [quadCost, sub_self, mul_zero, add_zero, Item.rank]
  exact g2 z hz

theorem quad_gap {v : Env ℝ} (hv : ∀ x, 0 ≤ x → SolveLoop.Spec.SqrtAt v.sqrt x) {o : QuadCone.Con ℝ}
    {w : QuadCone.Ws ℝ} {len : Nat} (hm : o.m = len) (ho : QuadCone.Spec.Good o)
    (hB : Spin.Spec.IsForm (QuadCone.inner o.n o.Q))
    (hw : Spin.Spec.Interior (QuadCone.inner o.n o.Q) w.W) {s₀ s : Schur.Sys ℝ} (hr : s₀.rows = len)
    (hs : (Item.quad o w).schur v.sqrt s₀ = .ok s) {kc : ℝ} (hk : 0 < kc) (y : Nat → ℝ)
    {x' : Item ℝ} {n : Option ℝ} {b : ℝ} (hp : (Item.quad o w).prepareStep v kc len y = .ok (x', n, b))
    {A : ℝ} (hA : A ≤ 1) (hn : ∀ n', n = some n' → n' ≤ A) :
    ItemGap (.quad o w) len s kc y b := by
  subst hm
  obtain ⟨t, e1, -, e2⟩ := QuadCone.C37_schur_partial o ho hB w.W s₀ hr
  have hs' : QuadCone.schur o w.W true s₀ = .ok s := hs
  rw [hs'] at e1
  simp only [Outcome.ok.injEq] at e1
  subst e1
  obtain ⟨w', a, b', f1, f2, -⟩ := QuadCone.C36_step (exp := fun _ => 1) hv (fun _ => one_pos) o hB kc y 1
    w hw
  simp only [Item.prepareStep, f1, Outcome.bind_ok, Outcome.ok.injEq, Prod.mk.injEq] at hp
  obtain ⟨-, rfl, rfl⟩ := hp
  obtain ⟨g1, g2⟩ := spin_gap hB e2 hk y f2 ((hn a rfl).trans hA)
  refine ⟨g1, fun z hz => ?_⟩
  simp only [quadCost, sub_self, mul_zero, add_zero, Item.rank]
  exact g2 z hz

/-- Matrix inequalities: the slack and the dual point near the centre. -/
theorem lmi_near {ι : Type} [Fintype ι] [DecidableEq ι] {W S : Matrix ι ι ℝ} (hW : W.PosDef)
    (hS : S.transpose = S) (hb : ∀ μ, MatrixExp.Spec.Eigenvalue (W * S) μ → |1 - μ| ≤ 1) :
    S.PosSemidef ∧ ∀ P : Matrix ι ι ℝ, P.PosSemidef → 0 ≤ (P * ((2 : ℝ) • W - W * S * W)).trace := by
  obtain ⟨V, d, hV, hVW, hd⟩ := Lmi.exists_basis hW hS
  have hd' : ∀ i, 0 ≤ d i ∧ d i ≤ 2 := fun i => by
    have := abs_le.1 (hb _ ((Lmi.eigenvalue_iff hV hd _).2 ⟨i, rfl⟩))
    constructor <;> linarith
  have hst : ∀ X : Matrix ι ι ℝ, star X = X.transpose := fun X => by
    rw [Matrix.star_eq_conjTranspose, Matrix.conjTranspose_eq_transpose_of_trivial]
  have hD : V.transpose * S * V = Matrix.diagonal d := by
    have : V * (V.transpose * S * V) = V * Matrix.diagonal d := by
      rw [← hd, hVW]
      simp only [Matrix.mul_assoc]
    exact hV.mul_left_cancel this
  refine ⟨?_, fun P hP => ?_⟩
  · rw [← Matrix.IsUnit.posSemidef_star_left_conjugate_iff hV, hst, hD]
    exact Matrix.posSemidef_diagonal_iff.2 fun i => (hd' i).1
  · have e : (2 : ℝ) • W - W * S * W = V * Matrix.diagonal (fun i => 2 - d i) * V.transpose := by
      have e1 : W * S * W = V * Matrix.diagonal d * V.transpose := by
        calc W * S * W = W * S * (V * V.transpose) := by rw [← hVW]
          _ = V * Matrix.diagonal d * V.transpose := by rw [← Matrix.mul_assoc, hd]
      have e2 : Matrix.diagonal (fun i => 2 - d i) = (2 : ℝ) • (1 : Matrix ι ι ℝ) - Matrix.diagonal d := by
        ext i j
        by_cases h : i = j <;> simp [h, Matrix.diagonal_apply, Matrix.one_apply]
      rw [e1, e2, Matrix.mul_sub, Matrix.sub_mul, Matrix.mul_smul, Matrix.smul_mul, Matrix.mul_one, ← hVW]
    have hQ : (V.transpose * P * V).PosSemidef := by
      rw [← hst, Matrix.IsUnit.posSemidef_star_left_conjugate_iff hV]
      exact hP
    have e3 : (P * (V * Matrix.diagonal (fun i => 2 - d i) * V.transpose)).trace =
        ∑ i, (V.transpose * P * V) i i * (2 - d i) := by
      have : P * (V * Matrix.diagonal (fun i => 2 - d i) * V.transpose) =
          (P * V * Matrix.diagonal (fun i => 2 - d i)) * V.transpose := by
        simp only [Matrix.mul_assoc]
      rw [this, Matrix.trace_mul_comm, ← Matrix.mul_assoc, ← Matrix.mul_assoc, Matrix.trace]
      exact sum_congr rfl fun i _ => by rw [Matrix.diag_apply, Matrix.mul_diagonal]
    rw [e, e3]
    exact sum_nonneg fun i _ => mul_nonneg hQ.diag_nonneg (by linarith [(hd' i).2])

/-- The trace of a product with a combination of matrices. -/
theorem trace_slack {ι : Type} [Fintype ι] (C : Matrix ι ι ℝ) (A : Nat → Matrix ι ι ℝ) (m : Nat) (k : ℝ)
    (u : Nat → ℝ) (Z : Matrix ι ι ℝ) : ((k • C - ∑ j ∈ range m, u j • A j) * Z).trace =
      k * (C * Z).trace - ∑ j ∈ range m, u j * (A j * Z).trace := by
  rw [Matrix.sub_mul, Matrix.trace_sub, Matrix.smul_mul, Matrix.trace_smul, Matrix.sum_mul,
    Matrix.trace_sum]
  simp only [Matrix.smul_mul, Matrix.trace_smul, smul_eq_mul]

theorem trace_swap {ι : Type} [Fintype ι] (X Y W : Matrix ι ι ℝ) :
    (X * (W * Y * W)).trace = (Y * (W * X * W)).trace := by
  rw [← Matrix.mul_assoc, Matrix.trace_mul_comm, ← Matrix.mul_assoc, ← Matrix.mul_assoc,
    ← Matrix.mul_assoc, Matrix.trace_mul_comm]
  simp only [Matrix.mul_assoc]

/-- Matrix inequalities in terms of real matrices, with traces that are multiples of those in the
system. -/
theorem trace_gap {ι : Type} [Fintype ι] [DecidableEq ι] {A : Nat → Matrix ι ι ℝ} {C W : Matrix ι ι ℝ}
    {m : Nat} {s : Schur.Sys ℝ} {δ : ℝ} (hδ : 0 < δ)
    (hG : ∀ i < m, ∀ j ≤ i, δ * s.G i j = (A i * (W * A j * W)).trace)
    (hAW : ∀ i < m, δ * s.AW i = (A i * W).trace)
    (hAQc : ∀ i < m, δ * s.AQc i = (A i * (W * C * W)).trace) (hW : W.PosDef)
    {kc : ℝ} (hk : 0 < kc) {y : Nat → ℝ} {S : Matrix ι ι ℝ}
    (hS : S = kc • C - ∑ j ∈ range m, y j • A j) (hSt : S.transpose = S) {b r : ℝ}
    (hb : δ * b = (W * S * (W * S)).trace - 2 * (W * S).trace + δ * r)
    (hn : ∀ μ, MatrixExp.Spec.Eigenvalue (W * S) μ → |1 - μ| ≤ 1) :
    (C - ∑ j ∈ range m, (y j / kc) • A j).PosSemidef ∧
    ∀ z : Nat → ℝ, (C - ∑ j ∈ range m, z j • A j).PosSemidef →
      ∑ j ∈ range m, (z j - y j / kc) * res s m kc y j ≤ (r - b) / kc := by
  obtain ⟨h1, h2⟩ := lmi_near hW hSt hn
  set X := (2 : ℝ) • W - W * S * W with hX
  have hT : ∀ j < m, δ * res s m kc y j = (A j * X).trace := by
    intro j hj
    unfold res
    rw [hX, Matrix.mul_sub, Matrix.trace_sub, Matrix.mul_smul, Matrix.trace_smul, smul_eq_mul,
      trace_swap, hS, trace_slack, trace_swap, mul_add, mul_sub]
    have e1 : δ * (2 * s.AW j) = 2 * (A j * W).trace := by
      rw [← hAW j hj]
      ring
    have e2 : δ * (kc * s.AQc j) = kc * (A j * (W * C * W)).trace := by
      rw [← hAQc j hj]
      ring
    have : δ * ∑ i ∈ range m, s.G (max j i) (min j i) * y i =
        ∑ i ∈ range m, y i * (A i * (W * A j * W)).trace := by
      rw [mul_sum]
      refine sum_congr rfl fun i hi => ?_
      have hi := mem_range.1 hi
      rw [← mul_assoc, mul_comm]
      congr 1
      rcases le_total i j with h | h
      · rw [max_eq_left h, min_eq_right h, hG j hj i h, trace_swap]
      · rw [max_eq_right h, min_eq_left h, hG i hi j h]
    rw [e1, e2, this]
    ring
  have hcomb : ∀ u : Nat → ℝ, δ * ∑ j ∈ range m, u j * res s m kc y j =
      ∑ j ∈ range m, u j * (A j * X).trace := fun u => by
    rw [mul_sum]
    exact sum_congr rfl fun j hj => by rw [← hT j (mem_range.1 hj)]; ring
  refine ⟨?_, fun z hz => ?_⟩
  · have e : C - ∑ j ∈ range m, (y j / kc) • A j = kc⁻¹ • S := by
      rw [hS, smul_sub, smul_smul, inv_mul_cancel₀ hk.ne', one_smul, smul_sum]
      congr 1
      exact sum_congr rfl fun j _ => by rw [smul_smul, div_eq_inv_mul]
    rw [e]
    exact h1.smul (inv_nonneg.2 hk.le)
  · have key := cone_gap (len := m) (T := fun j => (A j * X).trace) (y := y) (z := z)
      (cx := (C * X).trace) (φ := ((C - ∑ j ∈ range m, z j • A j) * X).trace) (ψ := δ * (r - b)) hk
      (by
        have e := trace_slack C A m 1 z X
        rw [one_smul, one_mul] at e
        exact e.symm)
      (by
        have e := trace_slack C A m kc y X
        rw [← hS] at e
        rw [← e, hX, Matrix.mul_sub, Matrix.trace_sub, Matrix.mul_smul, Matrix.trace_smul, smul_eq_mul,
          Matrix.trace_mul_comm S W, mul_sub, hb]
        have : (S * (W * S * W)).trace = (W * S * (W * S)).trace := by
          rw [← Matrix.mul_assoc, Matrix.trace_mul_comm, ← Matrix.mul_assoc, ← Matrix.mul_assoc]
        rw [this]
        ring)
      (h2 _ hz)
    have e := hcomb fun j => z j - y j / kc
    rw [← e, mul_div_assoc] at key
    exact le_of_mul_le_mul_left key hδ

theorem lmi_gap {v : Env ℝ} {m : Nat} {o : Lmi.Con m ℝ} {w : Lmi.Ws m ℝ} {len : Nat} (hm : o.m = len)
    (ho : Lmi.Spec.Symmetric o) (hW : w.W.PosDef) {s₀ s : Schur.Sys ℝ} (hr : s₀.rows = len)
    (hs : (Item.lmi m o w).schur v.sqrt s₀ = .ok s) {kc : ℝ} (hk : 0 < kc) (y : Nat → ℝ)
    {x' : Item ℝ} {n : Option ℝ} {b : ℝ} (hp : (Item.lmi m o w).prepareStep v kc len y = .ok (x', n, b))
    {A : ℝ} (hA : A ≤ 1) (hex : Bounded kc A y (.lmi m o w)) :
    ItemGap (.lmi m o w) len s kc y b := by
  subst hm
  have hWt := Lmi.transpose_of_posDef hW
  obtain ⟨⟨t, e1, -, e2⟩, -⟩ := Lmi.C59_schur o ho w.W hWt s₀ hr.ge
  have hs' : Lmi.schur o w.W true s₀ = .ok s := hs
  rw [hs'] at e1
  simp only [Outcome.ok.injEq] at e1
  subst e1
  set S := Lmi.Spec.slack o kc y with hS
  have hSt : S.transpose = S := by
    have := Lmi.slack_transpose ho kc y
    rwa [Matrix.transpose_neg, neg_inj] at this
  have hb : b = (w.W * S * (w.W * S)).trace - 2 * (w.W * S).trace + m := by
    cases hq : Lmi.prepareStep v.sqrt v.tri o kc 1 o.m y w with
    | ok q =>
      simp only [Item.prepareStep, hq, Outcome.bind_ok, Outcome.ok.injEq, Prod.mk.injEq] at hp
      obtain ⟨w', n', b'⟩ := q
      obtain ⟨-, rfl, -, g⟩ := Lmi.prepareStep_inv hq
      have : b = b' := (congrArg Prod.snd hp.2).symm
      rw [this, g]
      simp only [mul_neg, neg_mul, neg_neg, Matrix.trace_neg, ← hS]
      ring
    | throws => simp [Item.prepareStep, hq] at hp
    | ub => simp [Item.prepareStep, hq] at hp
    | diverges => simp [Item.prepareStep, hq] at hp
  obtain ⟨h1, h2⟩ := trace_gap (s := s) (m := o.m) (A := o.A) (C := o.C) (b := b) (r := m) one_pos
    (fun i hi j hj => by rw [one_mul, e2.G i hi j hj]) (fun i hi => by rw [one_mul, e2.AW i hi])
    (fun i hi => by rw [one_mul, e2.AQc i hi]) hW hk hS hSt (by rw [one_mul, one_mul, hb])
    fun μ hμ => (hex μ hμ).trans hA
  refine ⟨h1, fun z hz => ?_⟩
  simp only [quadCost, sub_self, mul_zero, add_zero, Item.rank]
  exact h2 z hz

open HermLmi Hyper in
theorem lmat_slack {d n : Nat} (A : List (HMat d n ℝ)) (C : HMat d n ℝ) (k : ℝ) (y : Nat → ℝ) :
    lmat (HermLmi.Spec.slack A C k y) =
      k • lmat C - ∑ j ∈ range A.length, y j • lmat (A.getD j fun _ => 0) := by
  ext p q
  simp only [lmat, HermLmi.Spec.slack, Matrix.sub_apply, Matrix.sum_apply, Matrix.smul_apply, smul_eq_mul,
    mul_sub, sum_sub_distrib, mul_sum]
  congr 1
  · exact sum_congr rfl fun c _ => by ring
  · rw [sum_comm]
    exact sum_congr rfl fun i _ => sum_congr rfl fun c _ => by ring

open HermLmi Hyper in
theorem inner_lmat {d n : Nat} (hd : Hyper.Spec.Dim d) {X : HMat d n ℝ} (hX : Hyper.Spec.Hermitian X)
    (Y : HMat d n ℝ) (h4 : d = 1 ∨ d = 2 ∨ d = 4) :
    (d : ℝ) * HermLmi.Spec.inner X Y = (lmat X * lmat Y).trace := by
  rw [inner_eq, traceInner_retr hd, (hermitian_iff _).1 hX, ← trace_lmat hd, lmat_multiply h4]

open HermLmi Hyper in
theorem psd_lmat {d n : Nat} (hd : Hyper.Spec.Dim d) {X : HMat d n ℝ} (hX : Hyper.Spec.Hermitian X) :
    (∀ v, 0 ≤ HermLmi.Spec.form X v) ↔ (lmat X).PosSemidef := by
  rw [Matrix.posSemidef_iff_dotProduct_mulVec]
  have h := (hermitian_lmat hd X).1 hX
  constructor
  · refine fun hf => ⟨by rw [Matrix.IsHermitian, Matrix.conjTranspose_eq_transpose_of_trivial, h], ?_⟩
    intro x
    obtain ⟨v, rfl⟩ := flat_surjective x
    have := hf v
    rw [form_eq] at this
    simpa using this
  · rintro ⟨-, hf⟩ v
    rw [form_eq]
    simpa using hf (flat v)

open HermLmi Hyper in
theorem hermitian_gap {v : Env ℝ} {d m : Nat} {hd : NeZero d} {o : HermLmi.Con d m ℝ} {w : HermLmi.Ws d m ℝ}
    {len : Nat} (hm : o.mats.length = len) (h4 : d = 1 ∨ d = 2 ∨ d = 4) (ho : HermLmi.Spec.HermitianData o)
    (hW : HermLmi.Spec.PosDef w.W) {s₀ s : Schur.Sys ℝ} (hr : s₀.rows = len)
    (hs : (Item.hermitian d m hd o w).schur v.sqrt s₀ = .ok s) {kc : ℝ} (hk : 0 < kc) (y : Nat → ℝ)
    {x' : Item ℝ} {n : Option ℝ} {b : ℝ}
    (hp : (Item.hermitian d m hd o w).prepareStep v kc len y = .ok (x', n, b))
    {A : ℝ} (hA : A ≤ 1) (hex : Bounded kc A y (.hermitian d m hd o w)) :
    ItemGap (.hermitian d m hd o w) len s kc y b := by
  subst hm
  have hD := dim_of_assoc h4
  cases hq : HermLmi.prepareStep v.sqrt v.tri (v.start d m) o kc 1 o.mats.length y w with
  | throws => simp [Item.prepareStep, hq] at hp
  | ub => simp [Item.prepareStep, hq] at hp
  | diverges => simp [Item.prepareStep, hq] at hp
  | ok q =>
    simp only [Item.prepareStep, hq, Outcome.bind_ok, Outcome.ok.injEq, Prod.mk.injEq] at hp
    obtain ⟨w', n', b'⟩ := q
    have hbb : b = b' := (congrArg Prod.snd hp.2).symm
    subst hbb
    obtain ⟨C, hC, -, -, g1, -, g2⟩ := HermLmi.prepareStep_inv hq
    obtain ⟨⟨t', e1, -, e3⟩, -⟩ := HermLmi.C62_schur hD o ho w.W hW.1 C hC s₀ hr.ge
    have hs' : HermLmi.schur o w.W true s₀ = .ok s := hs
    rw [hs'] at e1
    simp only [Outcome.ok.injEq] at e1
    subst e1
    have hAm : ∀ i < o.mats.length, Hyper.Spec.Hermitian (o.mats.getD i fun _ => 0) := by
      intro i hi
      rw [List.getD_eq_getElem?_getD, List.getElem?_eq_getElem hi, Option.getD_some]
      exact ho.1 _ (List.getElem_mem hi)
    have hSh := HermLmi.hermitian_slack hC ho kc y
    set S := HermLmi.Spec.slack o.mats C kc y with hS
    have hQ : ∀ X : HMat d m ℝ, lmat (quadRep w.W X) = lmat w.W * lmat X * lmat w.W := fun X => by
      rw [quadRep_assoc h4, lmat_multiply h4, lmat_multiply h4]
    have hd0 : (0 : ℝ) < d := by
      have : 0 < d := by omega
      exact_mod_cast this
    have hWS : lmat w'.WS = -(lmat w.W * lmat S) := by
      rw [g1, lmat_multiply h4, lmat_scalar]
      simp
    have hb : (d : ℝ) * b = (lmat w.W * lmat S * (lmat w.W * lmat S)).trace -
        2 * (lmat w.W * lmat S).trace + d * m := by
      rw [g2, ← retr_zero, ← retr_zero, mul_add, mul_add, ← trace_lmat hD, mul_left_comm, ← trace_lmat hD,
        lmat_multiply h4, hWS, neg_mul_neg, Matrix.trace_neg]
      ring
    obtain ⟨h1, h2⟩ := trace_gap (s := s) (m := o.mats.length) (A := fun i => lmat (o.mats.getD i fun _ => 0))
      (C := lmat C) (W := lmat w.W) (b := b) (r := m) hd0
      (fun i hi j hj => by rw [e3.G i hi j hj, inner_lmat hD (hAm i hi) _ h4, hQ])
      (fun i hi => by rw [e3.AW i hi, inner_lmat hD (hAm i hi) _ h4])
      (fun i hi => by rw [e3.AQc i hi, inner_lmat hD (hAm i hi) _ h4, hQ])
      ((posDef_lmat hD _).1 hW) hk (by rw [hS, lmat_slack]) ((hermitian_lmat hD _).1 hSh) hb
      (fun μ hμ => by
        rw [← lmat_multiply h4, ← eigenvalue_lmat] at hμ
        exact (hex C hC μ hμ).trans hA)
    have hsat : ∀ z : Nat → ℝ, (∀ u, 0 ≤ HermLmi.Spec.form (HermLmi.Spec.slack o.mats C 1 z) u) ↔
        (lmat C - ∑ j ∈ range o.mats.length, z j • lmat (o.mats.getD j fun _ => 0)).PosSemidef := by
      intro z
      rw [psd_lmat hD (HermLmi.hermitian_slack hC ho 1 z), lmat_slack, one_smul]
    refine ⟨⟨C, hC, (hsat _).2 h1⟩, fun z hz => ?_⟩
    simp only [quadCost, sub_self, mul_zero, add_zero, Item.rank]
    obtain ⟨C', hC', hz⟩ := hz
    rw [hC] at hC'
    cases hC'
    exact h2 z ((hsat z).1 hz)

/-- The residual of an equation. -/
theorem equality_res {v : Env ℝ} {o : Equality.Con ℝ} {len : Nat} (hb : o.nb = o.p)
    (hm : o.q + o.p = len) {s₀ s : Schur.Sys ℝ} (hr : s₀.rows = len)
    (hs : (Item.equality o).schur v.sqrt s₀ = .ok s) {kc : ℝ} (y : Nat → ℝ) :
    (∀ j < o.q, res s len kc y j = ∑ r ∈ range o.p, o.A r j * y (o.q + r)) ∧
    ∀ r < o.p, res s len kc y (o.q + r) = ∑ j ∈ range o.q, o.A r j * y j - kc * o.b r := by
  subst hm
  obtain ⟨t', e1, e2, e3, e4, e5, -⟩ := Equality.C40_block o hb le_rfl s₀ hr
  have hs' : Equality.schur o true s₀ = .ok s := hs
  rw [hs'] at e1
  simp only [Outcome.ok.injEq] at e1
  subst e1
  have hlow : ∀ j < o.q, res s (o.q + o.p) kc y j = ∑ r ∈ range o.p, o.A r j * y (o.q + r) := by
    intro j hj
    unfold res
    rw [e5, e4, if_neg (by omega), mul_zero, mul_zero, sub_zero, zero_add, sum_range_add]
    have h0 : ∑ i ∈ range o.q, s.G (max j i) (min j i) * y i = 0 := by
      refine sum_eq_zero fun i hi => ?_
      have hi := mem_range.1 hi
      rw [e3, if_neg (by omega), if_neg (by omega), zero_mul]
    rw [h0, zero_add]
    refine sum_congr rfl fun r hr => ?_
    have hr := mem_range.1 hr
    rw [e3, if_pos (by omega), max_eq_right (by omega), min_eq_left (by omega)]
    congr 2
    omega
  have hhigh : ∀ r < o.p, res s (o.q + o.p) kc y (o.q + r) =
      ∑ j ∈ range o.q, o.A r j * y j - kc * o.b r := by
    intro r hr
    unfold res
    rw [e5, e4, if_pos (by omega), mul_zero, sum_range_add]
    have h0 : ∑ i ∈ range o.p, s.G (max (o.q + r) (o.q + i)) (min (o.q + r) (o.q + i)) * y (o.q + i) =
        0 := by
      refine sum_eq_zero fun i hi => ?_
      have hi := mem_range.1 hi
      rw [e3, if_neg (by omega), if_neg (by omega), zero_mul]
    rw [h0, add_zero]
    have h1 : ∑ i ∈ range o.q, s.G (max (o.q + r) i) (min (o.q + r) i) * y i =
        ∑ j ∈ range o.q, o.A r j * y j := by
      refine sum_congr rfl fun i hi => ?_
      have hi := mem_range.1 hi
      rw [e3, if_pos (by omega), max_eq_left (by omega), min_eq_right (by omega)]
      congr 2
      omega
    rw [h1, show o.q + r - o.q = r by omega]
    ring
  exact ⟨hlow, hhigh⟩

theorem equality_gap {v : Env ℝ} {o : Equality.Con ℝ} {len : Nat} (hb : o.nb = o.p)
    (hm : o.q + o.p = len) {s₀ s : Schur.Sys ℝ} (hr : s₀.rows = len)
    (hs : (Item.equality o).schur v.sqrt s₀ = .ok s) {kc : ℝ} (hk : 0 < kc) (y : Nat → ℝ)
    {x' : Item ℝ} {n : Option ℝ} {b : ℝ} (hp : (Item.equality o).prepareStep v kc len y = .ok (x', n, b))
    (h0 : ∀ r < o.p, res s len kc y (o.q + r) = 0) :
    ItemGap (.equality o) len s kc y b := by
  obtain ⟨hlow, hhigh⟩ := equality_res hb hm hr hs (kc := kc) y
  subst hm
  have hb0 : b = 0 := by
    simp only [Item.prepareStep, Equality.prepareStep, hb, if_neg (by omega : ¬ o.q + o.p < o.p),
      Outcome.bind_ok, Outcome.ok.injEq, Prod.mk.injEq] at hp
    exact hp.2.2.symm
  subst hb0
  have hsat : ∀ r < o.p, ∑ j ∈ range o.q, o.A r j * (y j / kc) = o.b r := by
    intro r hr
    have h1 := h0 r hr
    rw [hhigh r hr] at h1
    have e : ∑ j ∈ range o.q, o.A r j * (y j / kc) = (∑ j ∈ range o.q, o.A r j * y j) / kc := by
      rw [sum_div]
      exact sum_congr rfl fun j _ => by ring
    rw [e, div_eq_iff hk.ne']
    linarith
  refine ⟨hsat, fun z hz => ?_⟩
  simp only [quadCost, sub_self, mul_zero, add_zero, Item.rank, Nat.cast_zero, zero_div]
  rw [sum_range_add]
  have hz2 : ∑ r ∈ range o.p, (z (o.q + r) - y (o.q + r) / kc) * res s (o.q + o.p) kc y (o.q + r) = 0 :=
    sum_eq_zero fun r hr => by rw [h0 r (mem_range.1 hr), mul_zero]
  rw [hz2, add_zero]
  have : ∑ j ∈ range o.q, (z j - y j / kc) * res s (o.q + o.p) kc y j =
      ∑ r ∈ range o.p, y (o.q + r) * (∑ j ∈ range o.q, o.A r j * z j -
        ∑ j ∈ range o.q, o.A r j * (y j / kc)) := by
    rw [sum_congr rfl fun j hj => by rw [hlow j (mem_range.1 hj), mul_sum], sum_comm]
    refine sum_congr rfl fun r _ => ?_
    rw [← sum_sub_distrib, mul_sum]
    exact sum_congr rfl fun j _ => by ring
  rw [this]
  refine le_of_eq (sum_eq_zero fun r hr => ?_)
  rw [hz r (mem_range.1 hr), hsat r (mem_range.1 hr), sub_self, mul_zero]

/-- Convexity of a quadratic function. -/
theorem quad_convex {n : Nat} {Q : Nat → Nat → ℝ} (hQ : QuadCone.Spec.Psd n Q) (z x : Nat → ℝ) :
    ∑ i ∈ range n, (z i - x i) * ∑ j ∈ range n, Q i j * x j ≤
      1 / 2 * ∑ i ∈ range n, z i * ∑ j ∈ range n, Q i j * z j -
        1 / 2 * ∑ i ∈ range n, x i * ∑ j ∈ range n, Q i j * x j := by
  have key := hQ.2 fun i => z i - x i
  have hsym : ∑ i ∈ range n, x i * ∑ j ∈ range n, Q i j * z j =
      ∑ i ∈ range n, z i * ∑ j ∈ range n, Q i j * x j := by
    simp only [mul_sum]
    rw [sum_comm]
    refine sum_congr rfl fun i hi => sum_congr rfl fun j hj => ?_
    rw [hQ.1 j (mem_range.1 hj) i (mem_range.1 hi)]
    ring
  have e : ∀ p q r t : Nat → ℝ, ∑ i ∈ range n, (p i - q i) * ∑ j ∈ range n, Q i j * (r j - t j) =
      ∑ i ∈ range n, p i * ∑ j ∈ range n, Q i j * r j - ∑ i ∈ range n, p i * ∑ j ∈ range n, Q i j * t j -
      ∑ i ∈ range n, q i * ∑ j ∈ range n, Q i j * r j +
        ∑ i ∈ range n, q i * ∑ j ∈ range n, Q i j * t j := by
    intro p q r t
    simp only [mul_sub, sum_sub_distrib, sub_mul]
    ring
  rw [e, hsym] at key
  have e2 : ∑ i ∈ range n, (z i - x i) * ∑ j ∈ range n, Q i j * x j =
      ∑ i ∈ range n, z i * ∑ j ∈ range n, Q i j * x j - ∑ i ∈ range n, x i * ∑ j ∈ range n, Q i j * x j := by
    rw [← sum_sub_distrib]
    exact sum_congr rfl fun i _ => by ring
  rw [e2]
  linarith

theorem cost_gap {v : Env ℝ} {m : Nat} {Q : Nat → Nat → ℝ} {len : Nat} (hm : m = len)
    (hQ : QuadCone.Spec.Psd m Q) {s₀ s : Schur.Sys ℝ} (hr : s₀.rows = len)
    (hs : (Item.cost m Q).schur v.sqrt s₀ = .ok s) {kc : ℝ} (hk : 0 < kc) (y : Nat → ℝ)
    {x' : Item ℝ} {n : Option ℝ} {b : ℝ} (hp : (Item.cost m Q).prepareStep v kc len y = .ok (x', n, b)) :
    ItemGap (.cost m Q) len s kc y b := by
  subst hm
  obtain ⟨t, u, e1, -, e2, -, e3, -⟩ := Equality.C40_cost m Q s₀ hr.ge
  have hs' : Equality.costSchur m Q true s₀ = .ok s := hs
  rw [hs'] at e1
  simp only [Outcome.ok.injEq] at e1
  subst e1
  simp only [Item.prepareStep, Outcome.ok.injEq, Prod.mk.injEq] at hp
  obtain ⟨-, -, rfl⟩ := hp
  have hT : ∀ j < m, res s m kc y j = kc * ∑ i ∈ range m, Q j i * (y i / kc) := by
    intro j hj
    unfold res
    rw [(e3 j).1, (e3 j).2, mul_zero, mul_zero, sub_zero, zero_add, mul_sum]
    refine sum_congr rfl fun i hi => ?_
    have hi := mem_range.1 hi
    rw [e2, if_pos (by omega)]
    have : Q (max j i) (min j i) = Q j i := by
      rcases le_total i j with h | h
      · rw [max_eq_left h, min_eq_right h]
      · rw [max_eq_right h, min_eq_left h, hQ.1 i hi j hj]
    rw [this]
    have := hk.ne'
    field_simp
  refine ⟨trivial, fun z _ => ?_⟩
  simp only [quadCost, Item.rank, Nat.cast_zero, sub_zero, zero_div, zero_add]
  have := mul_le_mul_of_nonneg_left (quad_convex hQ z fun j => y j / kc) hk.le
  refine le_trans (le_of_eq ?_) this
  rw [mul_sum]
  exact sum_congr rfl fun j hj => by rw [hT j (mem_range.1 hj)]; ring

theorem item_gap {v : Env ℝ} (hv : ∀ x, 0 ≤ x → SolveLoop.Spec.SqrtAt v.sqrt x) {e : Entry ℝ} {N : Nat}
    (hg : Gap.Spec.Good e N) {s₀ s : Schur.Sys ℝ} (hr : s₀.rows = e.vars.length)
    (hs : e.item.schur v.sqrt s₀ = .ok s) {kc : ℝ} (hk : 0 < kc) (y : Nat → ℝ) {x' : Item ℝ}
    {n : Option ℝ} {b : ℝ} (hp : e.item.prepareStep v kc e.vars.length y = .ok (x', n, b)) {A : ℝ}
    (hA : A ≤ 1) (hn : ∀ n', n = some n' → n' ≤ A) (hex : Bounded kc A y e.item)
    (h0 : ∀ o, e.item = .equality o → ∀ r < o.p, res s e.vars.length kc y (o.q + r) = 0) :
    ItemGap e.item e.vars.length s kc y b := by
  obtain ⟨vars, x⟩ := e
  obtain ⟨-, -, h⟩ := hg
  cases x with
  | linear o w => exact linear_gap h.1 h.2 hr hs hk y hp hA hn
  | lmi m o w => exact lmi_gap h.1 h.2.1 h.2.2 hr hs hk y hp hA hex
  | hermitian d m hd o w => exact hermitian_gap h.1 h.2.1 h.2.2.1 h.2.2.2 hr hs hk y hp hA hex
  | octonion m o w => exact absurd h id
  | soc o w => exact soc_gap hv h.1 h.2.1 h.2.2 hr hs hk y hp hA hn
  | quad o w => exact quad_gap hv h.1 h.2.1 h.2.2.1 h.2.2.2 hr hs hk y hp hA hn
  | equality o => exact equality_gap h.1 h.2 hr hs hk y hp (h0 o rfl)
  | cost m Q => exact cost_gap h.1 h.2 hr hs hk y hp

/-! ### All constraints together -/

theorem list_range_sum {M : Type*} [AddCommMonoid M] (f : Nat → M) (n : Nat) :
    ((List.range n).map f).sum = ∑ i ∈ range n, f i := by
  induction n with
  | zero => rfl
  | succ n ih => simp [List.range_succ, sum_range_succ, ih]

theorem list_sum {α : Type*} (f : α → ℝ) (l : List α) :
    (l.map f).sum = ∑ i ∈ range l.length, (l[i]?.map f).getD 0 := by
  induction l with
  | nil => rfl
  | cons a l ih =>
    rw [List.map_cons, List.sum_cons, List.length_cons, sum_range_succ', ih]
    simp [add_comm]

theorem rank_eq (es : List (Entry ℝ)) : (rank es : ℝ) = (es.map fun e => (e.item.rank : ℝ)).sum := by
  have h : ∀ (l : List (Entry ℝ)) (n : Nat), ((l.foldl (fun r e => r + e.item.rank) n : Nat) : ℝ) =
      n + (l.map fun e => (e.item.rank : ℝ)).sum := by
    intro l
    induction l with
    | nil => intro n; simp
    | cons e l ih =>
      intro n
      rw [List.foldl_cons, ih]
      simp only [Nat.cast_add, List.map_cons, List.sum_cons]
      ring
  unfold rank
  rw [h, Nat.cast_zero, zero_add]

/-- Summation against the contribution of a constraint. -/
theorem sum_ventry {L : List Nat} (hL : L.Nodup) {N : Nat} (hN : ∀ v ∈ L, v < N) (x F : Nat → ℝ) :
    ∑ u ∈ range N, x u * Sup.Spec.ventry L F u = ∑ j ∈ range L.length, x (L.getD j 0) * F j := by
  unfold Sup.Spec.ventry
  simp only [mul_ite, mul_zero]
  rw [← sum_filter]
  refine sum_bij' (fun v _ => L.idxOf v) (fun i _ => L.getD i 0) ?_ ?_ ?_ ?_ ?_
  · intro v hv
    exact mem_range.2 (List.idxOf_lt_length_of_mem (mem_filter.1 hv).2)
  · intro i hi
    have hi := mem_range.1 hi
    rw [List.getD_eq_getElem?_getD, List.getElem?_eq_getElem hi, Option.getD_some]
    exact mem_filter.2 ⟨mem_range.2 (hN _ (List.getElem_mem hi)), List.getElem_mem hi⟩
  · intro v hv
    have hv := List.idxOf_lt_length_of_mem (mem_filter.1 hv).2
    rw [List.getD_eq_getElem?_getD, List.getElem?_eq_getElem hv, Option.getD_some, List.getElem_idxOf]
  · intro i hi
    have hi := mem_range.1 hi
    simp only [List.getD_eq_getElem?_getD, List.getElem?_eq_getElem hi, Option.getD_some]
    exact hL.idxOf_getElem i hi
  · intro v hv
    have hv := List.idxOf_lt_length_of_mem (mem_filter.1 hv).2
    rw [List.getD_eq_getElem?_getD, List.getElem?_eq_getElem hv, Option.getD_some, List.getElem_idxOf]

theorem updateNorm_le (a : ℝ) (b : Option ℝ) :
    a ≤ updateNorm a b ∧ ∀ b', b = some b' → b' ≤ updateNorm a b := by
  cases b with
  | none => exact ⟨le_refl _, fun _ h => by cases h⟩
  | some b =>
    unfold updateNorm
    simp only
    split_ifs with h
    · exact ⟨h.le, fun b' hb => by cases hb; exact le_refl _⟩
    · exact ⟨le_refl _, fun b' hb => by cases hb; exact not_lt.1 h⟩

/-- What the loop over the constraints reports. -/
theorem prepareLoop_inv {v : Env ℝ} {c : ℝ} {N : Nat} {y : Nat → ℝ} (es : List (Entry ℝ)) :
    ∀ {a b : ℝ} {es' : List (Entry ℝ)} {A B : ℝ}, prepareLoop v c N y a b es = .ok (es', A, B) →
    a ≤ A ∧ ∃ β : Nat → ℝ, B = b + ∑ i ∈ range es.length, β i ∧
      ∀ (i : Nat) (e : Entry ℝ), es[i]? = some e → ∃ x' n,
        e.item.prepareStep v c e.vars.length (fun j => y (e.vars.getD j 0)) = .ok (x', n, β i) ∧
        ∀ n', n = some n' → n' ≤ A := by
  induction es with
  | nil =>
    intro a b es' A B h
    simp only [prepareLoop, Outcome.ok.injEq, Prod.mk.injEq] at h
    obtain ⟨-, rfl, rfl⟩ := h
    exact ⟨le_refl _, fun _ => 0, by simp, fun i e h => by simp at h⟩
  | cons e l ih =>
    intro a b es' A B h
    unfold prepareLoop at h
    cases hg : gather N y e.vars with
    | throws => simp [hg] at h
    | ub => simp [hg] at h
    | diverges => simp [hg] at h
    | ok z =>
      have hz : z = fun j => y (e.vars.getD j 0) := by
        unfold gather at hg
        split_ifs at hg
        exact (Outcome.ok.inj hg).symm
      simp only [hg, Outcome.bind_ok] at h
      cases hq : e.item.prepareStep v c e.vars.length z with
      | throws => simp [hq] at h
      | ub => simp [hq] at h
      | diverges => simp [hq] at h
      | ok q =>
        simp only [hq, Outcome.bind_ok] at h
        cases hl : prepareLoop v c N y (updateNorm a q.2.1) (b + q.2.2) l with
        | throws => simp [hl] at h
        | ub => simp [hl] at h
        | diverges => simp [hl] at h
        | ok r =>
          obtain ⟨es₁, A', B'⟩ := r
          simp only [hl, Outcome.bind_ok, Outcome.ok.injEq, Prod.mk.injEq] at h
          obtain ⟨-, rfl, rfl⟩ := h
          obtain ⟨h1, β, h2, h3⟩ := ih hl
          have hu := updateNorm_le a q.2.1
          refine ⟨hu.1.trans h1, fun i => if i = 0 then q.2.2 else β (i - 1), ?_, ?_⟩
          · rw [h2, List.length_cons, sum_range_succ']
            simp
            ring
          · intro i e' he'
            cases i with
            | zero =>
              simp only [List.getElem?_cons_zero, Option.some.injEq] at he'
              subst he'
              refine ⟨q.1, q.2.1, ?_, fun n' hn => (hu.2 n' hn).trans h1⟩
              rw [← hz, hq]
              rfl
            | succ i =>
              simp only [List.getElem?_cons_succ] at he'
              obtain ⟨x', n, h4, h5⟩ := h3 i e' he'
              exact ⟨x', n, by simpa using h4, h5⟩

/-- The local part of a point. -/
def local' (L : List Nat) (y : Nat → ℝ) : Nat → ℝ := fun j => y (L.getD j 0)

/-- The linear system, constraint by constraint. -/
theorem system_res {N : Nat} {y b : Nat → ℝ} {k bs cs : ℝ} {es : List (Entry ℝ)}
    (hg : ∀ e ∈ es, e.vars.Nodup ∧ ∀ v ∈ e.vars, v < N) {s : Nat → Schur.Sys ℝ} {u : Nat}
    (hy : ∑ v ∈ range N, Sup.Spec.total (es.map Entry.vars) (fun i => (s i).G) u v * y v =
      k * (bs * b u + cs * ((List.range es.length).map fun i =>
        Sup.Spec.ventry ((es.map Entry.vars).getD i []) (s i).AQc u).sum) -
      2 * ((List.range es.length).map fun i =>
        Sup.Spec.ventry ((es.map Entry.vars).getD i []) (s i).AW u).sum) :
    ∑ i ∈ range es.length, Sup.Spec.ventry ((es.map Entry.vars).getD i [])
      (res (s i) ((es.map Entry.vars).getD i []).length (k * cs)
        (local' ((es.map Entry.vars).getD i []) y)) u = k * bs * b u := by
  have hrow : ∀ i ∈ range es.length, Sup.Spec.ventry ((es.map Entry.vars).getD i [])
      (res (s i) ((es.map Entry.vars).getD i []).length (k * cs)
        (local' ((es.map Entry.vars).getD i []) y)) u =
      2 * Sup.Spec.ventry ((es.map Entry.vars).getD i []) (s i).AW u -
      k * cs * Sup.Spec.ventry ((es.map Entry.vars).getD i []) (s i).AQc u +
      ∑ v ∈ range N, Sup.Spec.entry ((es.map Entry.vars).getD i []) (s i).G u v * y v := by
    intro i hi
    have hi := mem_range.1 hi
    have hL : (es.map Entry.vars).getD i [] = es[i].vars := by
      rw [List.getD_eq_getElem?_getD, List.getElem?_map, List.getElem?_eq_getElem hi]
      rfl
    have hge := hg _ (List.getElem_mem hi)
    rw [hL, entry_row hge.1 hge.2]
    unfold Sup.Spec.ventry res local'
    by_cases hu : u ∈ es[i].vars
    · simp only [hu, if_true]
    · simp only [hu, if_false]
      ring
  rw [sum_congr rfl hrow, sum_add_distrib, sum_sub_distrib, ← mul_sum, ← mul_sum, sum_comm]
  have ht : ∑ v ∈ range N, ∑ i ∈ range es.length,
      Sup.Spec.entry ((es.map Entry.vars).getD i []) (s i).G u v * y v =
      ∑ v ∈ range N, Sup.Spec.total (es.map Entry.vars) (fun i => (s i).G) u v * y v := by
    refine sum_congr rfl fun v _ => ?_
    unfold Sup.Spec.total
    rw [list_range_sum, sum_mul, List.length_map]
  rw [ht, hy, list_range_sum, list_range_sum]
  ring

/-- The residual of a multiplier is zero. -/
theorem multiplier_res {N : Nat} {y b : Nat → ℝ} {k bs cs : ℝ} {es : List (Entry ℝ)}
    (hsep : Separate es b) (hg : ∀ e ∈ es, e.vars.Nodup ∧ ∀ v ∈ e.vars, v < N) {s : Nat → Schur.Sys ℝ}
    (hsys : ∀ u < N, ∑ i ∈ range es.length, Sup.Spec.ventry ((es.map Entry.vars).getD i [])
      (res (s i) ((es.map Entry.vars).getD i []).length (k * cs)
        (local' ((es.map Entry.vars).getD i []) y)) u = k * bs * b u) {i : Nat} {e : Entry ℝ}
    (he : es[i]? = some e) {o : Equality.Con ℝ} (ho : e.item = .equality o)
    (hm : o.q + o.p = e.vars.length) {r : Nat} (hr : r < o.p) :
    res (s i) e.vars.length (k * cs) (fun j => y (e.vars.getD j 0)) (o.q + r) = 0 := by
  have hvars : ∀ {i : Nat} {e : Entry ℝ}, es[i]? = some e → (es.map Entry.vars).getD i [] = e.vars := by
    intro i e he
    rw [List.getD_eq_getElem?_getD, List.getElem?_map, he]
    rfl
  obtain ⟨h3, h4⟩ := hsep i e o he ho r hr
  have hge := hg e (List.mem_of_getElem? he)
  have hlen : o.q + r < e.vars.length := by omega
  have hget : e.vars.getD (o.q + r) 0 = e.vars[o.q + r] := by
    rw [List.getD_eq_getElem?_getD, List.getElem?_eq_getElem hlen, Option.getD_some]
  have hin : e.vars.getD (o.q + r) 0 ∈ e.vars := by
    rw [hget]
    exact List.getElem_mem hlen
  have h5 := hsys _ (hge.2 _ hin)
  rw [h3, mul_zero] at h5
  have hilt : i < es.length := (List.getElem?_eq_some_iff.1 he).1
  rw [sum_eq_single_of_mem i (mem_range.2 hilt)] at h5
  · rw [hvars he] at h5
    unfold Sup.Spec.ventry at h5
    rw [if_pos hin, hget, hge.1.idxOf_getElem _ hlen] at h5
    exact h5
  · intro j hj hji
    have hj := mem_range.1 hj
    have hje : es[j]? = some es[j] := List.getElem?_eq_getElem hj
    unfold Sup.Spec.ventry
    rw [hvars hje, if_neg (h4 j _ hje hji)]

/-- The gap from any bound `A'` on the norms. -/
theorem program_gap_of {v : Env ℝ} (hv : ∀ x, 0 ≤ x → SolveLoop.Spec.SqrtAt v.sqrt x) {N : Nat}
    {y b : Nat → ℝ} {k bs cs : ℝ} (hk : 0 < k) (hbs : 0 < bs) (hcs : 0 < cs) {es : List (Entry ℝ)}
    (hg : ∀ e ∈ es, Gap.Spec.Good e N) (hsep : Separate es b) {s₀ s : Nat → Schur.Sys ℝ}
    (h0 : ∀ (i : Nat) (e : Entry ℝ), es[i]? = some e → (s₀ i).rows = e.vars.length)
    (hs : ∀ (i : Nat) (e : Entry ℝ), es[i]? = some e → e.item.schur v.sqrt (s₀ i) = .ok (s i))
    (hy : ∀ u < N, ∑ v ∈ range N, Sup.Spec.total (es.map Entry.vars) (fun i => (s i).G) u v * y v =
      k * (bs * b u + cs * ((List.range es.length).map fun i =>
        Sup.Spec.ventry ((es.map Entry.vars).getD i []) (s i).AQc u).sum) -
      2 * ((List.range es.length).map fun i =>
        Sup.Spec.ventry ((es.map Entry.vars).getD i []) (s i).AW u).sum)
    {es' : List (Entry ℝ)} {A B : ℝ} (hp : Dual.prepareStep v (k * cs) N y es = .ok (es', A, B))
    {A' : ℝ} (hAA : A ≤ A')
    (hA : A' ≤ 1) (hex : ∀ e ∈ es, Bounded (k * cs) A' (fun j => y (e.vars.getD j 0)) e.item) :
    Feasible es (fun u => y u / (k * cs)) ∧ ∀ z, Feasible es z →
      objective N b (cs / bs) es z ≤ objective N b (cs / bs) es (fun u => y u / (k * cs)) +
        (rank es - B) / (k ^ 2 * bs * cs) := by
  have hkc : 0 < k * cs := mul_pos hk hcs
  obtain ⟨-, β, hB, hβ⟩ := prepareLoop_inv es hp
  have hsys := fun u (hu : u < N) => system_res (fun e he => ⟨(hg e he).1, (hg e he).2.1⟩) (hy u hu)
  have hvars : ∀ {i : Nat} {e : Entry ℝ}, es[i]? = some e → (es.map Entry.vars).getD i [] = e.vars := by
    intro i e he
    rw [List.getD_eq_getElem?_getD, List.getElem?_map, he]
    rfl
  have hgap : ∀ (i : Nat) (e : Entry ℝ), es[i]? = some e →
      ItemGap e.item e.vars.length (s i) (k * cs) (fun j => y (e.vars.getD j 0)) (β i) := by
    intro i e he
    have hmem : e ∈ es := List.mem_of_getElem? he
    obtain ⟨x', n, h1, h2⟩ := hβ i e he
    refine item_gap hv (hg e hmem) (h0 i e he) (hs i e he) hkc _ h1 hA (fun n' hn => (h2 n' hn).trans hAA) (hex e hmem) ?_
    intro o ho r hr
    refine multiplier_res hsep (fun e he => ⟨(hg e he).1, (hg e he).2.1⟩) hsys he ho ?_ hr
    have := (hg e hmem).2.2
    rw [ho] at this
    exact this.2
  refine ⟨?_, fun z hz => ?_⟩
  · intro e he
    obtain ⟨i, hi, rfl⟩ := List.getElem_of_mem he
    exact (hgap i _ (List.getElem?_eq_getElem hi)).1
  · have key : k * bs * (∑ u ∈ range N, b u * z u - ∑ u ∈ range N, b u * (y u / (k * cs))) =
        ∑ i ∈ range es.length, ∑ j ∈ range ((es.map Entry.vars).getD i []).length,
          (local' ((es.map Entry.vars).getD i []) z j -
            local' ((es.map Entry.vars).getD i []) y j / (k * cs)) *
          res (s i) ((es.map Entry.vars).getD i []).length (k * cs)
            (local' ((es.map Entry.vars).getD i []) y) j := by
      have e1 : k * bs * (∑ u ∈ range N, b u * z u - ∑ u ∈ range N, b u * (y u / (k * cs))) =
          ∑ u ∈ range N, (z u - y u / (k * cs)) * (k * bs * b u) := by
        rw [← sum_sub_distrib, mul_sum]
        exact sum_congr rfl fun u _ => by ring
      rw [e1, sum_congr rfl fun u hu => by rw [← hsys u (mem_range.1 hu), mul_sum], sum_comm]
      refine sum_congr rfl fun i hi => ?_
      have hi := mem_range.1 hi
      have hie : es[i]? = some es[i] := List.getElem?_eq_getElem hi
      have hge := hg _ (List.getElem_mem hi)
      rw [hvars hie]
      exact sum_ventry hge.1 hge.2.1 (fun u => z u - y u / (k * cs)) _
    have hle : ∑ i ∈ range es.length, ∑ j ∈ range ((es.map Entry.vars).getD i []).length,
          (local' ((es.map Entry.vars).getD i []) z j -
            local' ((es.map Entry.vars).getD i []) y j / (k * cs)) *
          res (s i) ((es.map Entry.vars).getD i []).length (k * cs)
            (local' ((es.map Entry.vars).getD i []) y) j ≤
        (rank es - B) / (k * cs) + k * cs *
          ((es.map fun e => quadCost (fun j => z (e.vars.getD j 0)) e.item).sum -
           (es.map fun e => quadCost (fun j => y (e.vars.getD j 0) / (k * cs)) e.item).sum) := by
      rw [rank_eq, list_sum, list_sum, list_sum, hB, zero_add, ← sum_sub_distrib, ← sum_sub_distrib,
        sum_div, mul_sum, ← sum_add_distrib]
      refine sum_le_sum fun i hi => ?_
      have hi := mem_range.1 hi
      have hie : es[i]? = some es[i] := List.getElem?_eq_getElem hi
      rw [hvars hie, hie]
      have hze : Sat (fun j => z (es[i].vars.getD j 0)) es[i].item := hz _ (List.getElem_mem hi)
      exact (hgap i _ hie).2 _ hze
    rw [← key] at hle
    unfold objective
    set Qz := (es.map fun e => quadCost (fun j => z (e.vars.getD j 0)) e.item).sum
    set Qy := (es.map fun e => quadCost (fun j => y (e.vars.getD j 0) / (k * cs)) e.item).sum
    set bz := ∑ u ∈ range N, b u * z u
    set by' := ∑ u ∈ range N, b u * (y u / (k * cs))
    have h1 : bz - by' ≤ ((rank es - B) / (k * cs) + k * cs * (Qz - Qy)) / (k * bs) := by
      rw [le_div_iff₀ (mul_pos hk hbs)]
      linarith
    have h2 : ((rank es - B) / (k * cs) + k * cs * (Qz - Qy)) / (k * bs) =
        (rank es - B) / (k ^ 2 * bs * cs) + cs / bs * (Qz - Qy) := by
      have := hk.ne'
      have := hbs.ne'
      have := hcs.ne'
      field_simp
    rw [h2] at h1
    linarith

theorem program_gap {v : Env ℝ} (hv : ∀ x, 0 ≤ x → SolveLoop.Spec.SqrtAt v.sqrt x) {N : Nat}
    {y b : Nat → ℝ} {k bs cs : ℝ} (hk : 0 < k) (hbs : 0 < bs) (hcs : 0 < cs) {es : List (Entry ℝ)}
    (hg : ∀ e ∈ es, Gap.Spec.Good e N) (hsep : Separate es b) {s₀ s : Nat → Schur.Sys ℝ}
    (h0 : ∀ (i : Nat) (e : Entry ℝ), es[i]? = some e → (s₀ i).rows = e.vars.length)
    (hs : ∀ (i : Nat) (e : Entry ℝ), es[i]? = some e → e.item.schur v.sqrt (s₀ i) = .ok (s i))
    (hy : ∀ u < N, ∑ v ∈ range N, Sup.Spec.total (es.map Entry.vars) (fun i => (s i).G) u v * y v =
      k * (bs * b u + cs * ((List.range es.length).map fun i =>
        Sup.Spec.ventry ((es.map Entry.vars).getD i []) (s i).AQc u).sum) -
      2 * ((List.range es.length).map fun i =>
        Sup.Spec.ventry ((es.map Entry.vars).getD i []) (s i).AW u).sum)
    {es' : List (Entry ℝ)} {A B : ℝ} (hp : Dual.prepareStep v (k * cs) N y es = .ok (es', A, B))
    (hA : A ≤ 1) (hex : ∀ e ∈ es, Bounded (k * cs) A (fun j => y (e.vars.getD j 0)) e.item) :
    Feasible es (fun u => y u / (k * cs)) ∧ ∀ z, Feasible es z →
      objective N b (cs / bs) es z ≤ objective N b (cs / bs) es (fun u => y u / (k * cs)) +
        (rank es - B) / (k ^ 2 * bs * cs) :=
  program_gap_of hv hk hbs hcs hg hsep h0 hs hy hp le_rfl hA hex

end Verif.Gap
