import Verif.Lemmas.Gap
import Verif.Props.Assembler
import Verif.Model.KktError
import Verif.Spec.KktError

/-!
# Lemmas on objective values (C72)
-/

namespace Verif.KktError

open Finset Dual Gap

/-- What is shown for every constraint: `k ⟨c, x⟩ - ⟨A' x, y⟩ = rank - |d|²` with the dual point `x`. -/
def ItemId (len : Nat) (s : Schur.Sys ℝ) (kc : ℝ) (y : Nat → ℝ) (r b : ℝ) : Prop :=
  kc * (2 * s.wc + ∑ j ∈ range len, s.AQc j * y j - kc * s.cQc) -
    ∑ j ∈ range len, y j * res s len kc y j = r - b

/-- The identity for a cone with a linear form `L` (the inner product with the scaling point) and a
quadratic form `B`. -/
theorem form_id {V : Type} {L : V → ℝ} {B : V → V → ℝ} {S c : V} {A : Nat → V} {m : Nat}
    {s : Schur.Sys ℝ} {kc : ℝ} {y : Nat → ℝ} {r b : ℝ}
    (hG : ∀ i < m, ∀ j ≤ i, s.G i j = B (A i) (A j)) (hAW : ∀ i < m, s.AW i = L (A i))
    (hAQc : ∀ i < m, s.AQc i = B (A i) c) (hwc : s.wc = L c) (hcQc : s.cQc = B c c)
    (hL : L S = kc * L c - ∑ j ∈ range m, y j * L (A j))
    (hB : ∀ Z, B S Z = kc * B c Z - ∑ j ∈ range m, y j * B (A j) Z) (hsym : ∀ X Y, B X Y = B Y X)
    (hb : b = B S S - 2 * L S + r) : ItemId m s kc y r b := by
  have hres : ∀ j < m, res s m kc y j = 2 * L (A j) - B (A j) S := by
    intro j hj
    unfold res
    rw [hAW j hj, hAQc j hj, hsym (A j) S, hB, hsym c]
    have : ∑ i ∈ range m, s.G (max j i) (min j i) * y i = ∑ i ∈ range m, y i * B (A i) (A j) := by
      refine sum_congr rfl fun i hi => ?_
      have hi := mem_range.1 hi
      rw [mul_comm]
      congr 1
      rcases le_total i j with h | h
      · rw [max_eq_left h, min_eq_right h, hG j hj i h, hsym]
      · rw [max_eq_right h, min_eq_left h, hG i hi j h]
    rw [this]
    ring
  unfold ItemId
  have e1 : ∑ j ∈ range m, y j * res s m kc y j =
      2 * ∑ j ∈ range m, y j * L (A j) - ∑ j ∈ range m, y j * B (A j) S := by
    rw [mul_sum, ← sum_sub_distrib]
    exact sum_congr rfl fun j hj => by rw [hres j (mem_range.1 hj)]; ring
  have e2 : ∑ j ∈ range m, s.AQc j * y j = ∑ j ∈ range m, y j * B (A j) c :=
    sum_congr rfl fun j hj => by rw [hAQc j (mem_range.1 hj)]; ring
  have e3 := hB S
  have e4 := hB c
  rw [hsym S c] at e4
  rw [e1, e2, hwc, hcQc, hb]
  linear_combination -2 * hL + e3 + kc * e4

theorem linear_id {v : Env ℝ} {o : Linear.Con ℝ} {w : Linear.Ws ℝ} {len : Nat} (hm : o.m = len)
    {s₀ s : Schur.Sys ℝ} (hr : s₀.rows = len)
    (hs : (Item.linear o w).schur v.sqrt s₀ = .ok s) {kc : ℝ} (y : Nat → ℝ)
    {x' : Item ℝ} {n : Option ℝ} {b : ℝ} (hp : (Item.linear o w).prepareStep v kc len y = .ok (x', n, b)) :
    ItemId len s kc y o.n b ∧ 0 ≤ b := by
  subst hm
  obtain ⟨t', e1, e2, e3, e4, e5⟩ := Linear.C35_schur_init o w.W s₀ hr.ge
  obtain ⟨t₂, g1, g2, g3⟩ := Linear.C53_inner_products_partial o w.W s₀ hr
  have hs' : Linear.schur o w.W true s₀ = .ok s := hs
  rw [hs'] at e1 g1
  simp only [Outcome.ok.injEq] at e1 g1
  subst e1
  subst g1
  have hn0 : 0 < o.n := by
    rcases Nat.eq_zero_or_pos o.n with h | h
    · simp [Item.prepareStep, Linear.prepareStep, Linear.negativeSlack, h] at hp
    · exact h
  obtain ⟨w', a, b', f1, f2, f3, -⟩ := Linear.C35_step v.exp o hn0 (opt := ⟨false, kc, 1, 1⟩) rfl
    le_rfl y w
  simp only [Item.prepareStep, f1, Outcome.bind_ok, Outcome.ok.injEq, Prod.mk.injEq] at hp
  obtain ⟨-, rfl, rfl⟩ := hp
  simp only at f3
  refine ⟨?_, by rw [f3]; exact sum_nonneg fun _ _ => sq_nonneg _⟩
  refine form_id (V := Nat → ℝ) (L := fun X => ∑ r ∈ range o.n, X r * w.W r)
    (B := fun X Y => ∑ r ∈ range o.n, X r * w.W r ^ 2 * Y r) (S := Linear.Spec.slack o kc y) (c := o.c)
    (A := fun j r => o.A r j) ?_ ?_ ?_ ?_ g3 ?_ ?_ ?_ ?_
  · intro i hi j hj
    rw [e3 i (by omega) j (by omega), if_pos (by omega)]
  · intro i hi
    rw [e4 i (by omega), if_pos hi]
  · intro i hi
    rw [e5 i (by omega), if_pos hi]
  · rw [g2]
    exact sum_congr rfl fun r _ => mul_comm _ _
  · simp only [Linear.Spec.slack, sub_mul, sum_sub_distrib, mul_sum, sum_mul]
    congr 1
    · exact sum_congr rfl fun r _ => by ring
    · rw [sum_comm]
      exact sum_congr rfl fun j _ => sum_congr rfl fun r _ => by ring
  · intro Z
    simp only [Linear.Spec.slack, sub_mul, sum_sub_distrib, mul_sum, sum_mul]
    congr 1
    · exact sum_congr rfl fun r _ => by ring
    · rw [sum_comm]
      exact sum_congr rfl fun j _ => sum_congr rfl fun r _ => by ring
  · intro X Y
    exact sum_congr rfl fun r _ => by ring
  · have : ((o.n : Nat) : ℝ) = ∑ r ∈ range o.n, (1 : ℝ) := by simp
    rw [f3, this, mul_sum, ← sum_sub_distrib, ← sum_add_distrib]
    refine sum_congr rfl fun r _ => ?_
    unfold Linear.Spec.dir
    ring

/-- Quadratic cones, in terms of the form. -/
theorem spin_id {B : (Nat → ℝ) → (Nat → ℝ) → ℝ} (hB : Spin.Spec.IsForm B) {m : Nat}
    {A : Nat → Soc.El ℝ} {c w : Soc.El ℝ} {s : Schur.Sys ℝ}
    (hc : Soc.Spec.Contributes B m A c w s.G s.AW s.AQc s.wc s.cQc) {kc : ℝ} (y : Nat → ℝ)
    {zz d : Soc.El ℝ} {a b : ℝ} (hp : Soc.Spec.Prepared B w (Spin.slackOf c A m kc y) zz d a b) :
    ItemId m s kc y 2 b ∧ 0 ≤ b := by
  have h3 := Spin.trace_dual hB hp
  have hb : 0 ≤ b := by
    obtain ⟨-, -, -, l₁, l₂, -, -, h6⟩ := hp
    rw [h6]
    positivity
  refine ⟨?_, hb⟩
  refine form_id (V := Soc.El ℝ) (L := fun X => Spin.Spec.tr B X w)
    (B := fun X Y => Spin.Spec.tr B X (Spin.Spec.quad B w Y)) (S := Spin.slackOf c A m kc y) (c := c)
    (A := A) (fun i hi j hj => hc.G i hi j (by omega)) hc.AW hc.AQc
    (by rw [hc.wc, Spin.tr_comm hB]) hc.cQc (Spin.tr_slack hB c A m kc y w)
    (fun Z => Spin.tr_slack hB c A m kc y _) (fun X Y => ?_) ?_
  · rw [← Spin.tr_quad hB, Spin.tr_comm hB]
  · have e : Spin.Spec.tr B (Spin.dualPoint B w (Spin.slackOf c A m kc y)) (Spin.slackOf c A m kc y) =
        2 * Spin.Spec.tr B (Spin.slackOf c A m kc y) w -
        Spin.Spec.tr B (Spin.slackOf c A m kc y) (Spin.Spec.quad B w (Spin.slackOf c A m kc y)) := by
      unfold Spin.dualPoint
      rw [Spin.tr_add hB, Spin.tr_smul hB, Spin.tr_smul hB, Spin.tr_comm hB w,
        Spin.tr_comm hB (Spin.Spec.quad B w _)]
      ring
    rw [h3] at e
    linarith

theorem soc_id {v : Env ℝ} (hv : ∀ x, 0 ≤ x → SolveLoop.Spec.SqrtAt v.sqrt x) {o : Soc.Con ℝ}
    {w : Soc.Ws ℝ} {len : Nat} (hm : o.m = len) (ho : Soc.Spec.Complete o)
    (hw : Spin.Spec.Interior (Soc.dot o.n) w.W) {s₀ s : Schur.Sys ℝ} (hr : s₀.rows = len)
    (hs : (Item.soc o w).schur v.sqrt s₀ = .ok s) {kc : ℝ} (y : Nat → ℝ)
    {x' : Item ℝ} {n : Option ℝ} {b : ℝ} (hp : (Item.soc o w).prepareStep v kc len y = .ok (x', n, b)) :
    ItemId len s kc y 2 b ∧ 0 ≤ b := by
  subst hm
  obtain ⟨⟨t, e1, -, e2⟩, -⟩ := Soc.C37_schur hv o ho w.W ⟨hw.1.le, hw.2.le⟩ s₀ hr
  have hs' : Soc.schur v.sqrt o w.W true s₀ = .ok s := hs
  rw [hs'] at e1
  simp only [Outcome.ok.injEq] at e1
  subst e1
  obtain ⟨w', a, b', f1, f2, -⟩ := Soc.C36_step (exp := fun _ => 1) hv (fun _ => one_pos) o ho kc y 1 w hw
  simp only [Item.prepareStep, f1, Outcome.bind_ok, Outcome.ok.injEq, Prod.mk.injEq] at hp
  obtain ⟨-, rfl, rfl⟩ := hp
  exact spin_id (Soc.dot_form o.n) e2 y f2

theorem quad_id {v : Env ℝ} (hv : ∀ x, 0 ≤ x → SolveLoop.Spec.SqrtAt v.sqrt x) {o : QuadCone.Con ℝ}
    {w : QuadCone.Ws ℝ} {len : Nat} (hm : o.m = len) (ho : QuadCone.Spec.Good o)
    (hB : Spin.Spec.IsForm (QuadCone.inner o.n o.Q))
    (hw : Spin.Spec.Interior (QuadCone.inner o.n o.Q) w.W) {s₀ s : Schur.Sys ℝ} (hr : s₀.rows = len)
    (hs : (Item.quad o w).schur v.sqrt s₀ = .ok s) {kc : ℝ} (y : Nat → ℝ)
    {x' : Item ℝ} {n : Option ℝ} {b : ℝ} (hp : (Item.quad o w).prepareStep v kc len y = .ok (x', n, b)) :
    ItemId len s kc y 2 b ∧ 0 ≤ b := by
  subst hm
  obtain ⟨t, e1, -, e2⟩ := QuadCone.C37_schur_partial o ho hB w.W s₀ hr
  have hs' : QuadCone.schur o w.W true s₀ = .ok s := hs
  rw [hs'] at e1
  simp only [Outcome.ok.injEq] at e1
  subst e1
  obtain ⟨w', a, b', f1, f2, -⟩ := QuadCone.C36_step (exp := fun _ => 1) hv (fun _ => one_pos) o hB kc y 1
    w hw
  simp only [Item.prepareStep, f1, Outcome.bind_ok, Outcome.ok.injEq, Prod.mk.injEq] at hp
  obtain ⟨-, rfl, rfl⟩ := hp
  exact spin_id hB e2 y f2

/-- The norm of a direction of a matrix inequality. -/
theorem norm_nonneg {ι : Type} [Fintype ι] [DecidableEq ι] {W S : Matrix ι ι ℝ} (hW : W.PosDef)
    (hS : S.transpose = S) :
    0 ≤ (W * S * (W * S)).trace - 2 * (W * S).trace + Fintype.card ι := by
  obtain ⟨V, d, hV, hVW, hd⟩ := Lmi.exists_basis hW hS
  have hu : V⁻¹ * V = 1 := Matrix.nonsing_inv_mul V ((Matrix.isUnit_iff_isUnit_det _).1 hV)
  have hu' : V * V⁻¹ = 1 := Matrix.mul_nonsing_inv V ((Matrix.isUnit_iff_isUnit_det _).1 hV)
  have e : W * S = V * Matrix.diagonal d * V⁻¹ := by
    rw [← hd, Matrix.mul_assoc, hu', Matrix.mul_one]
  have e1 : (W * S).trace = ∑ i, d i := by
    rw [e, Matrix.trace_mul_comm, ← Matrix.mul_assoc, hu, Matrix.one_mul, Matrix.trace_diagonal]
  have e2 : (W * S * (W * S)).trace = ∑ i, d i * d i := by
    have : W * S * (W * S) = V * Matrix.diagonal (fun i => d i * d i) * V⁻¹ := by
      rw [e, ← Matrix.diagonal_mul_diagonal]
      calc V * Matrix.diagonal d * V⁻¹ * (V * Matrix.diagonal d * V⁻¹)
          = V * Matrix.diagonal d * (V⁻¹ * V) * (Matrix.diagonal d * V⁻¹) := by
            simp only [Matrix.mul_assoc]
        _ = _ := by
            rw [hu, Matrix.mul_one]
            simp only [Matrix.mul_assoc]
    rw [this, Matrix.trace_mul_comm, ← Matrix.mul_assoc, hu, Matrix.one_mul, Matrix.trace_diagonal]
  have e3 : (Fintype.card ι : ℝ) = ∑ _i : ι, (1 : ℝ) := by simp
  rw [e1, e2, e3, mul_sum, ← sum_sub_distrib, ← sum_add_distrib]
  exact sum_nonneg fun i _ => by nlinarith [sq_nonneg (d i - 1)]

theorem lmi_id {v : Env ℝ} {m : Nat} {o : Lmi.Con m ℝ} {w : Lmi.Ws m ℝ} {len : Nat} (hm : o.m = len)
    (ho : Lmi.Spec.Symmetric o) (hW : w.W.PosDef) {s₀ s : Schur.Sys ℝ} (hr : s₀.rows = len)
    (hs : (Item.lmi m o w).schur v.sqrt s₀ = .ok s) {kc : ℝ} (y : Nat → ℝ)
    {x' : Item ℝ} {n : Option ℝ} {b : ℝ} (hp : (Item.lmi m o w).prepareStep v kc len y = .ok (x', n, b)) :
    ItemId len s kc y m b ∧ 0 ≤ b := by
  subst hm
  have hWt := Lmi.transpose_of_posDef hW
  obtain ⟨⟨t, e1, -, e2⟩, -⟩ := Lmi.C59_schur o ho w.W hWt s₀ hr.ge
  have hs' : Lmi.schur o w.W true s₀ = .ok s := hs
  rw [hs'] at e1
  simp only [Outcome.ok.injEq] at e1
  subst e1
  set S := Lmi.Spec.slack o kc y with hS
  have hSt : S.transpose = S := by
    have := Lmi.slack_transpose ho kc y
    rwa [Matrix.transpose_neg, neg_inj] at this
  have hb : b = (w.W * S * (w.W * S)).trace - 2 * (w.W * S).trace + m := by
    cases hq : Lmi.prepareStep v.sqrt v.tri o kc 1 o.m y w with
    | ok q =>
      simp only [Item.prepareStep, hq, Outcome.bind_ok, Outcome.ok.injEq, Prod.mk.injEq] at hp
      obtain ⟨w', n', b'⟩ := q
      obtain ⟨-, rfl, -, g⟩ := Lmi.prepareStep_inv hq
      have : b = b' := (congrArg Prod.snd hp.2).symm
      rw [this, g]
      simp only [mul_neg, neg_mul, neg_neg, Matrix.trace_neg, ← hS]
      ring
    | throws => simp [Item.prepareStep, hq] at hp
    | ub => simp [Item.prepareStep, hq] at hp
    | diverges => simp [Item.prepareStep, hq] at hp
  refine ⟨?_, ?_⟩
  · refine form_id (V := Matrix (Fin m) (Fin m) ℝ) (L := fun X => (X * w.W).trace)
      (B := fun X Y => (X * (w.W * Y * w.W)).trace) (S := S) (c := o.C) (A := o.A) e2.G e2.AW e2.AQc
      (by rw [e2.wc, Matrix.trace_mul_comm]) e2.cQc (trace_slack _ _ _ _ _ _)
      (fun Z => trace_slack _ _ _ _ _ _) (fun X Y => trace_swap _ _ _) ?_
    rw [hb, Matrix.trace_mul_comm w.W S]
    congr 2
    rw [← Matrix.mul_assoc, Matrix.trace_mul_comm, ← Matrix.mul_assoc, ← Matrix.mul_assoc]
  · have := norm_nonneg hW hSt
    rw [Fintype.card_fin] at this
    rw [hb]
    exact this

open HermLmi Hyper in
theorem inner_slack {d n : Nat} (A : List (HMat d n ℝ)) (C : HMat d n ℝ) (k : ℝ) (y : Nat → ℝ)
    (Z : HMat d n ℝ) : HermLmi.Spec.inner (HermLmi.Spec.slack A C k y) Z =
      k * HermLmi.Spec.inner C Z -
        ∑ j ∈ range A.length, y j * HermLmi.Spec.inner (A.getD j fun _ => 0) Z := by
  have h : ∀ X : HMat d n ℝ, HermLmi.Spec.inner X Z =
      ∑ p : Fin d × Fin n × Fin n, X p.1 p.2.1 p.2.2 * Z p.1 p.2.1 p.2.2 := fun X => by
    simp [HermLmi.Spec.inner, Fintype.sum_prod_type]
  simp only [h, HermLmi.Spec.slack, sub_mul, sum_sub_distrib, mul_sum, sum_mul]
  congr 1
  · exact sum_congr rfl fun p _ => by ring
  · rw [sum_comm]
    exact sum_congr rfl fun j _ => sum_congr rfl fun p _ => by ring

open HermLmi Hyper in
theorem octonion_id {v : Env ℝ} {m : Nat} {o : HermLmi.Con 8 m ℝ} {w : HermLmi.Ws 8 m ℝ} {len : Nat}
    (hm : o.mats.length = len) (ho : HermLmi.Spec.HermitianData o) (hW : Hyper.Spec.Hermitian w.W)
    {s₀ s : Schur.Sys ℝ} (hr : s₀.rows = len)
    (hs : (Item.octonion m o w).schur v.sqrt s₀ = .ok s) {kc : ℝ} (y : Nat → ℝ)
    {x' : Item ℝ} {n : Option ℝ} {b : ℝ}
    (hp : (Item.octonion m o w).prepareStep v kc len y = .ok (x', n, b)) :
    ItemId len s kc y m b := by
  subst hm
  have hD : Hyper.Spec.Dim 8 := .inr (.inr (.inr rfl))
  have hWc := (hermitian_iff _).1 hW
  cases hq : HermLmi.negativeSlack o kc o.mats.length y with
  | throws => simp [Item.prepareStep, HermLmi.prepareStepOct, hq] at hp
  | ub => simp [Item.prepareStep, HermLmi.prepareStepOct, hq] at hp
  | diverges => simp [Item.prepareStep, HermLmi.prepareStepOct, hq] at hp
  | ok T =>
    simp only [Item.prepareStep, HermLmi.prepareStepOct, hq, Outcome.bind_ok, Outcome.ok.injEq,
      Prod.mk.injEq] at hp
    obtain ⟨C, hC, -, rfl⟩ := HermLmi.negativeSlack_inv hq
    have hb := hp.2.2.symm
    obtain ⟨⟨t', e1, -, e3⟩, -⟩ := HermLmi.C62_schur hD o ho w.W hW C hC s₀ hr.ge
    have hs' : HermLmi.schur o w.W true s₀ = .ok s := hs
    rw [hs'] at e1
    simp only [Outcome.ok.injEq] at e1
    subst e1
    set S := HermLmi.Spec.slack o.mats C kc y with hS
    refine form_id (V := HMat 8 m ℝ) (L := fun X => HermLmi.Spec.inner X w.W)
      (B := fun X Y => HermLmi.Spec.inner X (quadRep w.W Y)) (S := S) (c := C)
      (A := fun i => o.mats.getD i fun _ => 0) e3.G e3.AW e3.AQc e3.wc e3.cQc
      (inner_slack _ _ _ _ _) (fun Z => inner_slack _ _ _ _ _) (fun X Y => ?_) ?_
    · rw [inner_eq, inner_eq, ← traceInner_quadRep hD hWc, traceInner_comm]
    · rw [hb, traceInner_quadRep hD hWc, traceInner_scalar_left, traceInner_comm w.W,
        traceInner_scalar_left, ← traceInner_quadRep hD hWc, traceInner_comm (quadRep w.W S),
        traceInner_scalar_left, inner_eq, inner_eq]
      ring

open HermLmi Hyper in
theorem hermitian_id {v : Env ℝ} {d m : Nat} {hd : NeZero d} {o : HermLmi.Con d m ℝ}
    {w : HermLmi.Ws d m ℝ} {len : Nat} (hm : o.mats.length = len) (h4 : d = 1 ∨ d = 2 ∨ d = 4)
    (ho : HermLmi.Spec.HermitianData o) (hW : HermLmi.Spec.PosDef w.W) {s₀ s : Schur.Sys ℝ}
    (hr : s₀.rows = len) (hs : (Item.hermitian d m hd o w).schur v.sqrt s₀ = .ok s) {kc : ℝ} (y : Nat → ℝ)
    {x' : Item ℝ} {n : Option ℝ} {b : ℝ}
    (hp : (Item.hermitian d m hd o w).prepareStep v kc len y = .ok (x', n, b)) :
    ItemId len s kc y m b ∧ 0 ≤ b := by
  subst hm
  have hD := dim_of_assoc h4
  cases hq : HermLmi.prepareStep v.sqrt v.tri (v.start d m) o kc 1 o.mats.length y w with
  | throws => simp [Item.prepareStep, hq] at hp
  | ub => simp [Item.prepareStep, hq] at hp
  | diverges => simp [Item.prepareStep, hq] at hp
  | ok q =>
    simp only [Item.prepareStep, hq, Outcome.bind_ok, Outcome.ok.injEq, Prod.mk.injEq] at hp
    obtain ⟨w', n', b'⟩ := q
    have hbb : b = b' := (congrArg Prod.snd hp.2).symm
    subst hbb
    obtain ⟨C, hC, -, -, g1, -, g2⟩ := HermLmi.prepareStep_inv hq
    obtain ⟨⟨t', e1, -, e3⟩, -⟩ := HermLmi.C62_schur hD o ho w.W hW.1 C hC s₀ hr.ge
    have hs' : HermLmi.schur o w.W true s₀ = .ok s := hs
    rw [hs'] at e1
    simp only [Outcome.ok.injEq] at e1
    subst e1
    have hSh := HermLmi.hermitian_slack hC ho kc y
    set S := HermLmi.Spec.slack o.mats C kc y with hS
    have hd0 : (0 : ℝ) < d := by
      have : 0 < d := by omega
      exact_mod_cast this
    have hWS : lmat w'.WS = -(lmat w.W * lmat S) := by
      rw [g1, lmat_multiply h4, lmat_scalar]
      simp
    have hb : (d : ℝ) * b = (lmat w.W * lmat S * (lmat w.W * lmat S)).trace -
        2 * (lmat w.W * lmat S).trace + d * m := by
      rw [g2, ← retr_zero, ← retr_zero, mul_add, mul_add, ← trace_lmat hD, mul_left_comm, ← trace_lmat hD,
        lmat_multiply h4, hWS, neg_mul_neg, Matrix.trace_neg]
      ring
    have hQ : ∀ X : HMat d m ℝ, lmat (quadRep w.W X) = lmat w.W * lmat X * lmat w.W := fun X => by
      rw [quadRep_assoc h4, lmat_multiply h4, lmat_multiply h4]
    have hQt : ∀ X Y : HMat d m ℝ, HermLmi.Spec.inner X (quadRep w.W Y) =
        HermLmi.Spec.inner Y (quadRep w.W X) := fun X Y => by
      rw [inner_eq, inner_eq, ← traceInner_quadRep hD ((hermitian_iff _).1 hW.1), traceInner_comm]
    refine ⟨?_, ?_⟩
    · refine form_id (V := HMat d m ℝ) (L := fun X => HermLmi.Spec.inner X w.W)
        (B := fun X Y => HermLmi.Spec.inner X (quadRep w.W Y)) (S := S) (c := C)
        (A := fun i => o.mats.getD i fun _ => 0) e3.G e3.AW e3.AQc e3.wc e3.cQc
        (inner_slack _ _ _ _ _) (fun Z => inner_slack _ _ _ _ _) hQt ?_
      have e4 := inner_lmat hD hSh (quadRep w.W S) h4
      have e5 := inner_lmat hD hSh w.W h4
      have e6 : (lmat S * lmat (quadRep w.W S)).trace = (lmat w.W * lmat S * (lmat w.W * lmat S)).trace := by
        rw [hQ, ← Matrix.mul_assoc, Matrix.trace_mul_comm, ← Matrix.mul_assoc, ← Matrix.mul_assoc]
      rw [Matrix.trace_mul_comm] at e5
      refine mul_left_cancel₀ hd0.ne' ?_
      rw [hb]
      linear_combination -e4 - e6 + 2 * e5
    · have := norm_nonneg ((posDef_lmat hD _).1 hW) ((hermitian_lmat hD _).1 hSh)
      refine nonneg_of_mul_nonneg_right ?_ hd0
      rw [hb]
      simpa [Fintype.card_prod, mul_comm] using this

theorem equality_id {v : Env ℝ} {o : Equality.Con ℝ} {len : Nat} (hb : o.nb = o.p)
    (hm : o.q + o.p = len) {s₀ s : Schur.Sys ℝ} (hr : s₀.rows = len)
    (hs : (Item.equality o).schur v.sqrt s₀ = .ok s) {kc : ℝ} (y : Nat → ℝ)
    {x' : Item ℝ} {n : Option ℝ} {b : ℝ} (hp : (Item.equality o).prepareStep v kc len y = .ok (x', n, b))
    (h0 : ∀ r < o.p, res s len kc y (o.q + r) = 0) : ItemId len s kc y 0 b ∧ 0 ≤ b := by
  obtain ⟨hlow, hhigh⟩ := equality_res hb hm hr hs (kc := kc) y
  subst hm
  obtain ⟨t', e1, e2, e3, e4, e5, e6, e7⟩ := Equality.C40_block o hb le_rfl s₀ hr
  have hs' : Equality.schur o true s₀ = .ok s := hs
  rw [hs'] at e1
  simp only [Outcome.ok.injEq] at e1
  subst e1
  have hb0 : b = 0 := by
    simp only [Item.prepareStep, Equality.prepareStep, hb, if_neg (by omega : ¬ o.q + o.p < o.p),
      Outcome.bind_ok, Outcome.ok.injEq, Prod.mk.injEq] at hp
    exact hp.2.2.symm
  subst hb0
  refine ⟨?_, le_refl _⟩
  unfold ItemId
  have g1 : ∑ j ∈ range (o.q + o.p), s.AQc j * y j = ∑ r ∈ range o.p, o.b r * y (o.q + r) := by
    rw [sum_range_add, sum_eq_zero fun j hj => by
      rw [e4, if_neg (by have := mem_range.1 hj; omega), zero_mul], zero_add]
    refine sum_congr rfl fun r hr => ?_
    have := mem_range.1 hr
    rw [e4, if_pos (by omega), show o.q + r - o.q = r by omega]
  have g2 : ∑ j ∈ range (o.q + o.p), y j * res s (o.q + o.p) kc y j =
      ∑ r ∈ range o.p, y (o.q + r) * ∑ j ∈ range o.q, o.A r j * y j := by
    rw [sum_range_add, sum_eq_zero (s := range o.p) fun r hr => by rw [h0 r (mem_range.1 hr), mul_zero],
      add_zero, sum_congr rfl fun j hj => by rw [hlow j (mem_range.1 hj), mul_sum], sum_comm]
    refine sum_congr rfl fun r _ => ?_
    rw [mul_sum]
    exact sum_congr rfl fun j _ => by ring
  rw [g1, g2, e6, e7, mul_zero, mul_zero, zero_add, sub_zero, mul_sum, ← sum_sub_distrib, sub_zero]
  refine sum_eq_zero fun r hr => ?_
  have h1 := h0 r (mem_range.1 hr)
  rw [hhigh r (mem_range.1 hr)] at h1
  linear_combination -y (o.q + r) * h1

/-- The identity for all constraints. -/
theorem item_id {v : Env ℝ} (hv : ∀ x, 0 ≤ x → SolveLoop.Spec.SqrtAt v.sqrt x) {e : Entry ℝ} {N : Nat}
    (hg : Spec.Regular e N) {s₀ s : Schur.Sys ℝ} (hr : s₀.rows = e.vars.length)
    (hs : e.item.schur v.sqrt s₀ = .ok s) {kc : ℝ} (y : Nat → ℝ) {x' : Item ℝ}
    {n : Option ℝ} {b : ℝ} (hp : e.item.prepareStep v kc e.vars.length y = .ok (x', n, b))
    (h0 : ∀ o, e.item = .equality o → ∀ r < o.p, res s e.vars.length kc y (o.q + r) = 0) :
    ItemId e.vars.length s kc y e.item.rank b ∧ (Gap.Spec.Good e N → 0 ≤ b) := by
  obtain ⟨vars, x⟩ := e
  cases x with
  | linear o w =>
    obtain ⟨-, -, h⟩ := hg
    exact (linear_id h.1 hr hs y hp).imp id fun h _ => h
  | lmi m o w =>
    obtain ⟨-, -, h⟩ := hg
    exact (lmi_id h.1 h.2.1 h.2.2 hr hs y hp).imp id fun h _ => h
  | hermitian d m hd o w =>
    obtain ⟨-, -, h⟩ := hg
    exact (hermitian_id h.1 h.2.1 h.2.2.1 h.2.2.2 hr hs y hp).imp id fun h _ => h
  | octonion m o w =>
    obtain ⟨-, -, h1, h2, h3⟩ := hg
    exact ⟨octonion_id h1 h2 h3 hr hs y hp, fun h => absurd h.2.2 id⟩
  | soc o w =>
    obtain ⟨-, -, h⟩ := hg
    have := (soc_id hv h.1 h.2.1 h.2.2 hr hs y hp).imp id fun h (_ : Gap.Spec.Good ⟨vars, .soc o w⟩ N) => h
    exact this
  | quad o w =>
    obtain ⟨-, -, h⟩ := hg
    exact (quad_id hv h.1 h.2.1 h.2.2.1 h.2.2.2 hr hs y hp).imp id fun h _ => h
  | equality o =>
    obtain ⟨-, -, h⟩ := hg
    have := equality_id h.1 h.2 hr hs y hp (h0 o rfl)
    exact ⟨by simpa [Item.rank] using this.1, fun _ => this.2⟩
  | cost m Q => exact hg.elim

theorem regular_vars {e : Entry ℝ} {N : Nat} (h : Spec.Regular e N) :
    e.vars.Nodup ∧ ∀ v ∈ e.vars, v < N := by
  obtain ⟨vars, x⟩ := e
  cases x with
  | octonion m o w => exact ⟨h.1, h.2.1⟩
  | cost m Q => exact h.elim
  | _ => exact ⟨h.1, h.2.1⟩

/-- The values of one iteration. -/
theorem program_id {v : Env ℝ} (hv : ∀ x, 0 ≤ x → SolveLoop.Spec.SqrtAt v.sqrt x) {N : Nat}
    {y b : Nat → ℝ} {k bs cs : ℝ} (hk : 0 < k) (hbs : 0 < bs) (hcs : 0 < cs) {es : List (Entry ℝ)}
    (hg : ∀ e ∈ es, Spec.Regular e N) (hsep : Gap.Spec.Separate es b) {s : Nat → Schur.Sys ℝ}
    (hs : Spec.Contributions v.sqrt es s) (hy : Spec.Solves N b k bs cs es s y) {r : Sup.Resid ℝ}
    (hr : Sup.assembleResiduals N (es.map Entry.vars) (fun i => resid (s i)) = .ok r)
    {es' : List (Entry ℝ)} {A B : ℝ} (hp : Dual.prepareStep v (k * cs) N y es = .ok (es', A, B)) :
    cxValue N r y k bs cs - byValue N b y k cs = (rank es - B) / (k ^ 2 * bs * cs) ∧
    ((∀ e ∈ es, Gap.Spec.Good e N) → 0 ≤ B) := by
  obtain ⟨-, β, hB, hβ⟩ := prepareLoop_inv es hp
  have hsys := fun u (hu : u < N) => system_res (fun e he => (regular_vars (hg e he))) (hy u hu)
  have hvars : ∀ {i : Nat} {e : Entry ℝ}, es[i]? = some e → (es.map Entry.vars).getD i [] = e.vars := by
    intro i e he
    rw [List.getD_eq_getElem?_getD, List.getElem?_map, he]
    rfl
  have hid : ∀ (i : Nat) (e : Entry ℝ), es[i]? = some e →
      ItemId e.vars.length (s i) (k * cs) (fun j => y (e.vars.getD j 0)) e.item.rank (β i) ∧
      (Gap.Spec.Good e N → 0 ≤ β i) := by
    intro i e he
    have hmem : e ∈ es := List.mem_of_getElem? he
    obtain ⟨x', n, h1, -⟩ := hβ i e he
    obtain ⟨s₀, h2, h3⟩ := hs i e he
    refine item_id hv (hg e hmem) h2 h3 _ h1 ?_
    intro o ho q hq
    refine multiplier_res hsep (fun e he => (regular_vars (hg e he))) hsys he ho ?_ hq
    have := hg e hmem
    unfold Spec.Regular at this
    rw [ho] at this
    have := this.2.2
    rw [ho] at this
    exact this.2
  obtain ⟨r', f1, f2, f3, -, f5⟩ := Sup.C19_residuals N (es.map Entry.vars) (fun i => resid (s i))
    (by
      intro c hc
      obtain ⟨e, he, rfl⟩ := List.mem_map.1 hc
      exact (regular_vars (hg e he)).1)
    (by
      intro c hc
      obtain ⟨e, he, rfl⟩ := List.mem_map.1 hc
      exact (regular_vars (hg e he)).2)
  rw [hr] at f1
  cases f1
  refine ⟨?_, fun hgood => ?_⟩
  · rw [list_range_sum, List.length_map] at f2 f3
    have key : k * cs * (2 * r.wc + ∑ u ∈ range N, r.AQc u * y u - k * cs * r.cQc) -
        k * bs * ∑ u ∈ range N, b u * y u = rank es - B := by
      have e1 : ∑ u ∈ range N, r.AQc u * y u = ∑ i ∈ range es.length,
          ∑ j ∈ range ((es.map Entry.vars).getD i []).length,
            (s i).AQc j * local' ((es.map Entry.vars).getD i []) y j := by
        have : ∀ u ∈ range N, r.AQc u * y u = ∑ i ∈ range es.length,
            y u * Sup.Spec.ventry ((es.map Entry.vars).getD i []) (s i).AQc u := by
          intro u _
          rw [f5, list_range_sum, List.length_map, mul_comm, mul_sum]
          rfl
        rw [sum_congr rfl this, sum_comm]
        refine sum_congr rfl fun i hi => ?_
        have hi := mem_range.1 hi
        have hge := regular_vars (hg _ (List.getElem_mem hi))
        rw [hvars (List.getElem?_eq_getElem hi), sum_ventry hge.1 hge.2]
        exact sum_congr rfl fun j _ => mul_comm _ _
      have e2 : k * bs * ∑ u ∈ range N, b u * y u = ∑ i ∈ range es.length,
          ∑ j ∈ range ((es.map Entry.vars).getD i []).length,
            local' ((es.map Entry.vars).getD i []) y j *
              res (s i) ((es.map Entry.vars).getD i []).length (k * cs)
                (local' ((es.map Entry.vars).getD i []) y) j := by
        have : ∀ u ∈ range N, k * bs * (b u * y u) = ∑ i ∈ range es.length,
            y u * Sup.Spec.ventry ((es.map Entry.vars).getD i [])
              (res (s i) ((es.map Entry.vars).getD i []).length (k * cs)
                (local' ((es.map Entry.vars).getD i []) y)) u := by
          intro u hu
          rw [← mul_sum, hsys u (mem_range.1 hu)]
          ring
        rw [mul_sum, sum_congr rfl this, sum_comm]
        refine sum_congr rfl fun i hi => ?_
        have hi := mem_range.1 hi
        have hge := regular_vars (hg _ (List.getElem_mem hi))
        rw [hvars (List.getElem?_eq_getElem hi)]
        exact sum_ventry hge.1 hge.2 y _
      rw [e1, e2, f2, f3, rank_eq, list_sum, hB, zero_add, mul_sum, mul_sum, ← sum_add_distrib,
        ← sum_sub_distrib, mul_sum, ← sum_sub_distrib, ← sum_sub_distrib]
      refine sum_congr rfl fun i hi => ?_
      have hi := mem_range.1 hi
      have hie : es[i]? = some es[i] := List.getElem?_eq_getElem hi
      rw [hvars hie, hie]
      exact (hid i _ hie).1
    unfold cxValue byValue
    rw [← key]
    have := hk.ne'
    have := hbs.ne'
    have := hcs.ne'
    field_simp
  · rw [hB, zero_add]
    refine sum_nonneg fun i hi => ?_
    have hi := mem_range.1 hi
    exact (hid i _ (List.getElem?_eq_getElem hi)).2 (hgood _ (List.getElem_mem hi))

end Verif.KktError
