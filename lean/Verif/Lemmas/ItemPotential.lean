import Verif.Lemmas.Potential
import Verif.Lemmas.LogDet
import Verif.Lemmas.ConeExists
import Mathlib.Analysis.Matrix.PosDef

/-!
# Lemmas for C98: the potentials of constraints
-/

namespace Verif.Centering

open Finset

/-- Linear coordinates `L`, which are `h` for the directions `dir`. -/
structure Coords {N : Nat} {ι : Type} (dir : ι → Fin N → ℝ) (L : (Fin N → ℝ) → Nat → ℝ) (h : ι → Nat → ℝ) : Prop where
  cont : ∀ j, Continuous fun y => L y j
  smul : ∀ a y, L (a • y) = fun j => a * L y j
  add : ∀ z (t : ℝ) u, L (z + t • dir u) = fun j => L z j + t * h u j

variable {N : Nat} {ι : Type} {dir : ι → Fin N → ℝ} {L : (Fin N → ℝ) → Nat → ℝ} {h : ι → Nat → ℝ}

/-! ### Matrices -/

section Lmi

open Matrix
open Lmi.Spec (slack)

variable {m : Nat} (o : Lmi.Con m ℝ)

theorem lmi_slack_add (c t : ℝ) (y z : Nat → ℝ) : slack o c (fun j => y j + t * z j) = slack o c y + t • slack o 0 z := by
  unfold Lmi.Spec.slack
  simp only [add_smul, sum_add_distrib, zero_smul, zero_sub, smul_neg, smul_sum, smul_smul]
  abel

theorem lmi_slack_smul (a c : ℝ) (y : Nat → ℝ) : slack o (a * c) (fun j => a * y j) = a • slack o c y := by
  unfold Lmi.Spec.slack
  simp only [smul_sub, smul_sum, smul_smul]

theorem lmi_slack_split (c : ℝ) (y : Nat → ℝ) : slack o c y = c • o.C + slack o 0 y := by
  unfold Lmi.Spec.slack
  rw [zero_smul, zero_sub, sub_eq_add_neg]

theorem lmi_symm {o : Lmi.Con m ℝ} (ho : Lmi.Spec.Symmetric o) (c : ℝ) (y : Nat → ℝ) : (slack o c y)ᵀ = slack o c y := by
  have := Lmi.slack_transpose ho c y
  rwa [transpose_neg, neg_inj] at this

theorem lmi_cont (hL : Coords dir L h) (c : ℝ) : Continuous fun y => slack o c (L y) := by
  unfold Lmi.Spec.slack
  exact continuous_const.sub (continuous_finsetSum _ fun i _ => (hL.cont i).smul continuous_const)

/-- The trace of a product with a linear combination. -/
theorem lmi_trace_zero (Y : Matrix (Fin m) (Fin m) ℝ) (z : Nat → ℝ) :
    (Y * slack o 0 z).trace = -∑ j ∈ range o.m, z j * (o.A j * Y).trace := by
  unfold Lmi.Spec.slack
  rw [zero_smul, zero_sub, Matrix.mul_neg, trace_neg, Matrix.mul_sum, trace_sum]
  congr 1
  exact sum_congr rfl fun j _ => by rw [Matrix.mul_smul, trace_smul, smul_eq_mul, Matrix.trace_mul_comm]

theorem trace_self_nonneg {T : Matrix (Fin m) (Fin m) ℝ} (hT : Tᵀ = T) :
    0 ≤ (T * T).trace ∧ ((T * T).trace = 0 → T = 0) := by
  have e : (T * T).trace = ∑ i, ∑ j, T i j ^ 2 := by
    nth_rewrite 2 [← hT]
    simp only [Matrix.trace, diag_apply, Matrix.mul_apply, transpose_apply]
    exact sum_congr rfl fun i _ => sum_congr rfl fun j _ => (sq _).symm
  have hnn : ∀ i ∈ univ, 0 ≤ ∑ j, T i j ^ 2 := fun i _ => sum_nonneg fun j _ => sq_nonneg _
  rw [e]
  refine ⟨sum_nonneg hnn, fun h => ?_⟩
  ext i j
  have h3 := (sum_eq_zero_iff_of_nonneg hnn).1 h i (mem_univ i)
  exact pow_eq_zero_iff two_ne_zero |>.1 ((sum_eq_zero_iff_of_nonneg fun j _ => sq_nonneg _).1 h3 j (mem_univ j))

theorem lmi_potential (hL : Coords dir L h) {o : Lmi.Con m ℝ} (ho : Lmi.Spec.Symmetric o) (c : ℝ)
    {X : Matrix (Fin m) (Fin m) ℝ} (hX : X.PosDef) :
    Potential dir {y | (slack o c (L y)).PosDef} (fun y => (X * slack o c (L y)).trace - Real.log (slack o c (L y)).det)
      (fun u y => ∑ j ∈ range o.m, h u j * ((o.A j * (slack o c (L y))⁻¹).trace - (o.A j * X).trace))
      (fun y => (slack o 0 (L y) * slack o 0 (L y)).trace) := by
  have hc := lmi_cont o hL c
  have hc0 := lmi_cont o hL 0
  have hadd : ∀ z (t : ℝ) u, slack o c (L (z + t • dir u)) = slack o c (L z) + t • slack o 0 (h u) :=
    fun z t u => by rw [hL.add, lmi_slack_add]
  have htr : Continuous fun y => (X * slack o c (L y)).trace := (continuous_const.matrix_mul hc).matrix_trace
  refine ⟨?_, ?_, fun V => ?_, fun z hz u => ?_, fun z hz u => ?_, (hc0.matrix_mul hc0).matrix_trace,
    fun y => (trace_self_nonneg (lmi_symm ho 0 _)).1, fun a y => ?_⟩
  · exact htr.continuousOn.sub (hc.matrix_det.continuousOn.log fun y hy => (PosDef.det_pos hy).ne')
  · obtain ⟨b, hb⟩ := LogDet.lower hX
    exact ⟨b, fun y hy => hb _ hy⟩
  · obtain ⟨ε, hε, M, hM⟩ := LogDet.level hX V
    refine ⟨_, fun y hy => LogDet.posDef_of_above hε hy, LogDet.closed_above hc (fun y => lmi_symm ho c _) ε,
      2 * M + 2 * ((c • o.C) * (c • o.C)).trace, fun y hy hV => ?_⟩
    obtain ⟨h1, h2⟩ := hM _ hy hV
    refine ⟨h1, ?_⟩
    have hC : (c • o.C)ᵀ = c • o.C := by
      have e := lmi_slack_split o c fun _ => 0
      have e0 : slack o 0 (fun _ => 0) = 0 := by simp [Lmi.Spec.slack]
      rw [e0, add_zero] at e
      rw [← e]
      exact lmi_symm ho c _
    have e1 : slack o 0 (L y) = slack o c (L y) - c • o.C := by
      rw [lmi_slack_split o c]
      abel
    have e2 := (trace_self_nonneg (T := slack o c (L y) + c • o.C) (by
      rw [transpose_add, lmi_symm ho, hC])).1
    rw [e1, Matrix.sub_mul, Matrix.mul_sub, Matrix.mul_sub, trace_sub, trace_sub, trace_sub]
    rw [Matrix.add_mul, Matrix.mul_add, Matrix.mul_add, trace_add, trace_add, trace_add] at e2
    linarith
  · have hz' : (slack o c (L z)).PosDef := hz
    refine (LogDet.eventually_posDef hz' (lmi_symm ho 0 (h u))).mono fun t ht => ?_
    have e := hadd z t u
    rw [← e] at ht
    exact ht
  · have h1 := LogDet.deriv (S := slack o c (L z)) hz (slack o 0 (h u))
    have h2 : HasDerivAt (fun t : ℝ => (X * (slack o c (L z) + t • slack o 0 (h u))).trace)
        (X * slack o 0 (h u)).trace 0 := by
      have e : (fun t : ℝ => (X * (slack o c (L z) + t • slack o 0 (h u))).trace) =
          fun t : ℝ => (X * slack o c (L z)).trace + t * (X * slack o 0 (h u)).trace := by
        funext t
        rw [Matrix.mul_add, trace_add, Matrix.mul_smul, trace_smul, smul_eq_mul]
      rw [e]
      simpa using ((hasDerivAt_id (0 : ℝ)).mul_const (X * slack o 0 (h u)).trace).const_add (X * slack o c (L z)).trace
    have e : (fun t : ℝ => (X * slack o c (L (z + t • dir u))).trace -
        Real.log (slack o c (L (z + t • dir u))).det) =
        fun t : ℝ => (X * (slack o c (L z) + t • slack o 0 (h u))).trace -
          Real.log (slack o c (L z) + t • slack o 0 (h u)).det := by
      funext t
      rw [hadd]
    rw [e]
    refine (h2.sub h1).congr_deriv ?_
    rw [lmi_trace_zero, lmi_trace_zero, ← neg_inj, neg_sub, sub_neg_eq_add, neg_add_eq_sub, ← sum_sub_distrib,
      ← sum_neg_distrib]
    exact sum_congr rfl fun j _ => by ring
  · have e : slack o 0 (L (a • y)) = a • slack o 0 (L y) := by
      rw [hL.smul, ← lmi_slack_smul, mul_zero]
    rw [e, Matrix.smul_mul, Matrix.mul_smul, trace_smul, trace_smul, smul_eq_mul, smul_eq_mul]
    ring

end Lmi

/-! ### Cells -/

section Cell

open Spin ConeCentering
open Spin.Spec (IsForm Interior tr)
open ConeCentering.Spec (inverse det)
open Soc (El)

variable {B : (Nat → ℝ) → (Nat → ℝ) → ℝ} (C : El ℝ) (A : Nat → El ℝ) (len : Nat)

theorem slackOf_add (c t : ℝ) (y z : Nat → ℝ) : slackOf C A len c (fun j => y j + t * z j) =
    Spin.Spec.add (slackOf C A len c y) (Spin.Spec.smul t (slackOf C A len 0 z)) := by
  unfold slackOf Spin.Spec.add Spin.Spec.smul
  simp only [mul_add, sum_add_distrib, El.mk.injEq]
  refine ⟨?_, ?_⟩
  · rw [show (fun j => (A j).h * (t * z j)) = fun j => t * ((A j).h * z j) from by funext j; ring, ← mul_sum]
    ring
  · funext l
    rw [show (fun j => (A j).t l * (t * z j)) = fun j => t * ((A j).t l * z j) from by funext j; ring, ← mul_sum]
    ring

theorem slackOf_smul (a c : ℝ) (y : Nat → ℝ) :
    slackOf C A len (a * c) (fun j => a * y j) = Spin.Spec.smul a (slackOf C A len c y) := by
  unfold slackOf Spin.Spec.smul
  simp only [El.mk.injEq]
  refine ⟨?_, ?_⟩
  · rw [mul_sub, mul_sum, mul_assoc]
    congr 1
    exact sum_congr rfl fun j _ => by ring
  · funext l
    rw [mul_sub, mul_sum, mul_assoc]
    congr 1
    exact sum_congr rfl fun j _ => by ring

theorem slackOf_split (c : ℝ) (y : Nat → ℝ) :
    slackOf C A len c y = Spin.Spec.add (Spin.Spec.smul c C) (slackOf C A len 0 y) := by
  unfold slackOf Spin.Spec.add Spin.Spec.smul
  simp only [zero_mul, zero_sub, ← sub_eq_add_neg]

theorem tr_slack_zero (hB : IsForm B) (Y : El ℝ) (z : Nat → ℝ) :
    tr B Y (slackOf C A len 0 z) = -∑ j ∈ range len, z j * tr B (A j) Y := by
  rw [tr_comm hB, tr_slack hB, zero_mul, zero_sub]

theorem head_cont (hL : Coords dir L h) (c : ℝ) : Continuous fun y => (slackOf C A len c (L y)).h := by
  unfold slackOf
  exact continuous_const.sub (continuous_finsetSum _ fun j _ => continuous_const.mul (hL.cont j))

theorem form_cont (hL : Coords dir L h) (hB : IsForm B) (c : ℝ) (v : Nat → ℝ) :
    Continuous fun y => B (slackOf C A len c (L y)).t v := by
  have e : (fun y => B (slackOf C A len c (L y)).t v) = fun y => c * B C.t v - ∑ j ∈ range len, L y j * B (A j).t v := by
    funext y
    exact form_slack hB c C.t (fun j => (A j).t) len (L y) v
  rw [e]
  exact continuous_const.sub (continuous_finsetSum _ fun j _ => (hL.cont j).mul continuous_const)

theorem tail_cont (hL : Coords dir L h) (hB : IsForm B) (c : ℝ) :
    Continuous fun y => B (slackOf C A len c (L y)).t (slackOf C A len c (L y)).t := by
  have e : (fun y => B (slackOf C A len c (L y)).t (slackOf C A len c (L y)).t) = fun y =>
      c * B (slackOf C A len c (L y)).t C.t - ∑ j ∈ range len, L y j * B (slackOf C A len c (L y)).t (A j).t := by
    funext y
    refine (form_slack hB c C.t (fun j => (A j).t) len (L y) _).trans ?_
    rw [hB.symm]
    congr 1
    exact sum_congr rfl fun j _ => by rw [hB.symm]
  rw [e]
  exact (continuous_const.mul (form_cont C A len hL hB c _)).sub
    (continuous_finsetSum _ fun j _ => (hL.cont j).mul (form_cont C A len hL hB c _))

/-- The form on a sum. -/
theorem form_add_smul (hB : IsForm B) (s σ : El ℝ) (t : ℝ) :
    B (Spin.Spec.add s (Spin.Spec.smul t σ)).t (Spin.Spec.add s (Spin.Spec.smul t σ)).t =
      B s.t s.t + t * (2 * B s.t σ.t) + t ^ 2 * B σ.t σ.t := by
  simp only [Spin.Spec.add, Spin.Spec.smul, hB.add, hB.add_right, hB.smul, hB.smul_right]
  rw [hB.symm σ.t]
  ring

theorem cell_potential (hL : Coords dir L h) (hB : IsForm B) {ω : ℝ} (hω : 0 < ω) (c : ℝ) {x : El ℝ} (hx : Interior B x) :
    Potential dir {y | Interior B (slackOf C A len c (L y))}
      (fun y => ω * (tr B x (slackOf C A len c (L y)) - Real.log (det B (slackOf C A len c (L y)))))
      (fun u y => ∑ j ∈ range len, h u j * (ω * tr B (A j) (inverse B (slackOf C A len c (L y))) - ω * tr B (A j) x))
      (fun y => (slackOf C A len 0 (L y)).h ^ 2 + B (slackOf C A len 0 (L y)).t (slackOf C A len 0 (L y)).t) := by
  set S : (Fin N → ℝ) → El ℝ := fun y => slackOf C A len c (L y) with hS
  have hadd : ∀ z (t : ℝ) u, S (z + t • dir u) =
      Spin.Spec.add (S z) (Spin.Spec.smul t (slackOf C A len 0 (h u))) := fun z t u => by
    simp only [hS]
    rw [hL.add, slackOf_add]
  have hh := head_cont C A len hL c
  have hT := tail_cont C A len hL hB c
  have hdet : Continuous fun y => det B (S y) := (hh.pow 2).sub hT
  have htr : Continuous fun y => tr B x (S y) := by
    have e : (fun y => tr B x (S y)) = fun y => 2 * (x.h * (S y).h + B (S y).t x.t) := by
      funext y
      rw [hB.symm]
      rfl
    rw [e]
    exact continuous_const.mul ((continuous_const.mul hh).add (form_cont C A len hL hB c _))
  have hμ : 0 < det B x / x.h := div_pos (det_pos hx) hx.1
  have hge : ∀ y, Interior B (S y) → det B x / x.h * (S y).h ≤ tr B x (S y) := fun y hy => tr_ge hB hx hy
  refine ⟨?_, ⟨ω * (2 * (1 + Real.log (det B x / x.h / 2))), fun y hy => ?_⟩, fun V => ?_, fun z hz u => ?_,
    fun z hz u => ?_, ((head_cont C A len hL 0).pow 2).add (tail_cont C A len hL hB 0),
    fun y => add_nonneg (sq_nonneg _) (hB.nonneg _), fun a y => ?_⟩
  · exact continuousOn_const.mul (htr.continuousOn.sub (hdet.continuousOn.log fun y hy => (det_pos hy).ne'))
  · exact mul_le_mul_of_nonneg_left (Barrier.cone_ge hμ hy.1 (hB.nonneg _) hy.2 (hge y hy)) hω.le
  · set K := 2 * (V / ω / 2 - 1 - Real.log (det B x / x.h / 2 / 2)) / (det B x / x.h / 2) with hK
    refine ⟨{y | Real.exp (-(V / ω)) ≤ det B (S y)} ∩ {y | Real.exp (-(V / ω / 2)) ≤ (S y).h}, fun y hy =>
      ⟨(Real.exp_pos _).trans_le hy.2, sub_pos.1 ((Real.exp_pos _).trans_le hy.1)⟩,
      (isClosed_le continuous_const hdet).inter (isClosed_le continuous_const hh),
      2 * K ^ 2 + 2 * (c * C.h) ^ 2 + (2 * K ^ 2 + 2 * B (Spin.Spec.smul c C).t (Spin.Spec.smul c C).t), fun y hy hV => ?_⟩
    have hV' : tr B x (S y) - Real.log ((S y).h ^ 2 - B (S y).t (S y).t) ≤ V / ω := by
      rw [le_div_iff₀ hω, mul_comm]
      exact hV
    obtain ⟨h1, h2, h3⟩ := Barrier.cone_le hμ hy.1 (hB.nonneg _) hy.2 (hge y hy) hV'
    refine ⟨⟨h1, h2⟩, ?_⟩
    have e1 : slackOf C A len 0 (L y) = Spin.Spec.add (S y) (Spin.Spec.smul (-1) (Spin.Spec.smul c C)) := by
      simp only [hS]
      rw [slackOf_split C A len c]
      have e2 : ∀ s d : El ℝ, s = Spin.Spec.add (Spin.Spec.add d s) (Spin.Spec.smul (-1) d) := fun s d => by
        obtain ⟨a, v⟩ := s
        simp only [Spin.Spec.add, Spin.Spec.smul, El.mk.injEq]
        exact ⟨by ring, by funext l; ring⟩
      exact e2 _ _
    have h4 : (S y).h ^ 2 ≤ K ^ 2 := pow_le_pow_left₀ hy.1.le h3 2
    rw [e1, form_add_smul hB]
    have h5 := hB.nonneg (Spin.Spec.add (S y) (Spin.Spec.smul 1 (Spin.Spec.smul c C))).t
    rw [form_add_smul hB] at h5
    have h6 := hy.2
    change B (S y).t (S y).t < (S y).h ^ 2 at h6
    refine add_le_add ?_ ?_
    · simp only [Spin.Spec.add, Spin.Spec.smul]
      nlinarith [sq_nonneg ((S y).h + c * C.h)]
    · linarith
  · have h1 : Continuous fun t : ℝ => z + t • dir u := by fun_prop
    filter_upwards [(hh.comp h1).continuousAt.eventually (lt_mem_nhds (a := 0) (by simpa using hz.1)),
      ((hdet.comp h1).continuousAt (x := 0)).eventually (lt_mem_nhds (a := 0) (by
        simpa using det_pos hz))] with t g1 g2
    exact ⟨g1, sub_pos.1 g2⟩
  · set σ := slackOf C A len 0 (h u) with hσ
    have hD := det_pos hz
    have e1 : (fun t : ℝ => ω * (tr B x (S (z + t • dir u)) -
        Real.log (det B (S (z + t • dir u))))) = fun t : ℝ => ω * (tr B x (S z) + t * tr B x σ -
          Real.log (det B (S z) + t * sh B (S z) σ + t ^ 2 * det B σ)) := by
      funext t
      rw [hadd, tr_comm hB, tr_add hB, tr_smul hB, tr_comm hB (S z), tr_comm hB σ]
      congr 3
      unfold Spec.det sh
      rw [form_add_smul hB]
      simp only [Spin.Spec.add, Spin.Spec.smul]
      ring
    rw [e1]
    have h2 : HasDerivAt (fun t : ℝ => tr B x (S z) + t * tr B x σ) (tr B x σ) 0 := by
      simpa using ((hasDerivAt_id (0 : ℝ)).mul_const (tr B x σ)).const_add (tr B x (S z))
    have h3 : HasDerivAt (fun t : ℝ => det B (S z) + t * sh B (S z) σ + t ^ 2 * det B σ) (sh B (S z) σ) 0 := by
      have := (((hasDerivAt_id (0 : ℝ)).mul_const (sh B (S z) σ)).const_add (det B (S z))).add
        (((hasDerivAt_id (0 : ℝ)).pow 2).mul_const (det B σ))
      refine this.congr_deriv ?_
      simp
    refine ((h2.sub (h3.log ?_)).const_mul ω).congr_deriv ?_
    · simpa using hD.ne'
    · simp only [zero_mul, add_zero, ne_eq, OfNat.ofNat_ne_zero, not_false_eq_true, zero_pow]
      rw [← tr_inverse hB, hσ, tr_slack_zero C A len hB, tr_slack_zero C A len hB, sub_neg_eq_add, neg_add_eq_sub,
        ← sum_sub_distrib, mul_sum]
      exact sum_congr rfl fun j _ => by ring
  · have e : slackOf C A len 0 (L (a • y)) = Spin.Spec.smul a (slackOf C A len 0 (L y)) := by
      rw [hL.smul, ← slackOf_smul, mul_zero]
    rw [e]
    simp only [Spin.Spec.smul, hB.smul, hB.smul_right]
    ring

end Cell

/-! ### Quadratic costs -/

theorem cost_potential (hL : Coords dir L h) {n : Nat} {Q : Nat → Nat → ℝ} (hQ : QuadCone.Spec.Psd n Q) (w : Nat → ℝ) :
    Potential dir Set.univ (fun y => (∑ i ∈ range n, (L y i - w i) * ∑ j ∈ range n, Q i j * (L y j - w j)) / 2)
      (fun u y => ∑ i ∈ range n, h u i * (∑ j ∈ range n, Q i j * L y j - ∑ j ∈ range n, Q i j * w j))
      (fun y => ∑ i ∈ range n, L y i * ∑ j ∈ range n, Q i j * L y j) := by
  have hc : ∀ v : Nat → ℝ, Continuous fun y => ∑ i ∈ range n, (L y i - v i) * ∑ j ∈ range n, Q i j * (L y j - v j) :=
    fun v => continuous_finsetSum _ fun i _ => ((hL.cont i).sub continuous_const).mul
      (continuous_finsetSum _ fun j _ => continuous_const.mul ((hL.cont j).sub continuous_const))
  refine ⟨((hc w).div_const 2).continuousOn, ⟨0, fun y _ => div_nonneg (hQ.2 fun i => L y i - w i) zero_le_two⟩, fun V => ?_,
    fun _ _ _ => Filter.Eventually.of_forall fun _ => trivial, fun z _ u => ?_, ?_, fun y => hQ.2 (L y), fun a y => ?_⟩
  · refine ⟨Set.univ, subset_rfl, isClosed_univ, 4 * V + 2 * ∑ i ∈ range n, w i * ∑ j ∈ range n, Q i j * w j,
      fun y _ hV => ⟨trivial, ?_⟩⟩
    have h1 := hQ.2 fun i => L y i - 2 * w i
    have e : ∑ i ∈ range n, L y i * ∑ j ∈ range n, Q i j * L y j = 2 * (∑ i ∈ range n, (L y i - w i) *
        ∑ j ∈ range n, Q i j * (L y j - w j)) + 2 * (∑ i ∈ range n, w i * ∑ j ∈ range n, Q i j * w j) -
        ∑ i ∈ range n, (L y i - 2 * w i) * ∑ j ∈ range n, Q i j * (L y j - 2 * w j) := by
      simp only [mul_sum, ← sum_add_distrib, ← sum_sub_distrib]
      exact sum_congr rfl fun i _ => sum_congr rfl fun j _ => by ring
    rw [e]
    linarith
  · have e : (fun t : ℝ => (∑ i ∈ range n, (L (z + t • dir u) i - w i) * ∑ j ∈ range n, Q i j *
        (L (z + t • dir u) j - w j)) / 2) = fun t : ℝ =>
        ((∑ i ∈ range n, (L z i - w i) * ∑ j ∈ range n, Q i j * (L z j - w j)) + 2 * t *
          (∑ i ∈ range n, h u i * (∑ j ∈ range n, Q i j * L z j - ∑ j ∈ range n, Q i j * w j)) +
          t ^ 2 * ∑ i ∈ range n, h u i * ∑ j ∈ range n, Q i j * h u j) / 2 := by
      funext t
      congr 1
      have e1 : ∑ i ∈ range n, ∑ j ∈ range n, (L z i - w i) * (Q i j * h u j) =
          ∑ i ∈ range n, ∑ j ∈ range n, h u i * (Q i j * (L z j - w j)) := by
        rw [sum_comm]
        exact sum_congr rfl fun i hi => sum_congr rfl fun j hj => by
          rw [hQ.1 j (mem_range.1 hj) i (mem_range.1 hi)]
          ring
      have e2 : ∑ i ∈ range n, (L z i + t * h u i - w i) * ∑ j ∈ range n, Q i j * (L z j + t * h u j - w j) =
          (∑ i ∈ range n, (L z i - w i) * ∑ j ∈ range n, Q i j * (L z j - w j)) +
          t * (∑ i ∈ range n, ∑ j ∈ range n, h u i * (Q i j * (L z j - w j))) +
          t * (∑ i ∈ range n, ∑ j ∈ range n, (L z i - w i) * (Q i j * h u j)) +
          t ^ 2 * ∑ i ∈ range n, h u i * ∑ j ∈ range n, Q i j * h u j := by
        simp only [mul_sum, ← sum_add_distrib]
        exact sum_congr rfl fun i _ => sum_congr rfl fun j _ => by ring
      rw [hL.add]
      simp only
      rw [e2, e1]
      have e3 : ∑ i ∈ range n, h u i * (∑ j ∈ range n, Q i j * L z j - ∑ j ∈ range n, Q i j * w j) =
          ∑ i ∈ range n, ∑ j ∈ range n, h u i * (Q i j * (L z j - w j)) := by
        refine sum_congr rfl fun i _ => ?_
        rw [← sum_sub_distrib, mul_sum]
        exact sum_congr rfl fun j _ => by ring
      rw [e3]
      ring
    rw [e]
    set P := ∑ i ∈ range n, (L z i - w i) * ∑ j ∈ range n, Q i j * (L z j - w j)
    set R := ∑ i ∈ range n, h u i * (∑ j ∈ range n, Q i j * L z j - ∑ j ∈ range n, Q i j * w j)
    set T := ∑ i ∈ range n, h u i * ∑ j ∈ range n, Q i j * h u j
    have h1 : HasDerivAt (fun t : ℝ => (P + 2 * t * R + t ^ 2 * T) / 2) ((0 + 2 * 1 * R + (2 * (0 : ℝ) ^ (2 - 1) * 1) * T) / 2) 0 :=
      ((((hasDerivAt_id (0 : ℝ)).const_mul 2).mul_const R).const_add _ |>.add
        (((hasDerivAt_id (0 : ℝ)).pow 2).mul_const _)).div_const 2 |>.congr_deriv (by simp)
    exact h1.congr_deriv (by ring)
  · have := hc fun _ => 0
    simpa using this
  · rw [hL.smul, mul_sum]
    refine sum_congr rfl fun i _ => ?_
    simp only [mul_sum]
    exact sum_congr rfl fun j _ => by ring

end Verif.Centering
