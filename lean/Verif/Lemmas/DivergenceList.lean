import Verif.Props.Divergence
import Mathlib.Topology.Order.IntermediateValue
import Mathlib.Topology.Algebra.Order.Group
import Mathlib.Topology.Instances.Real.Lemmas
import Mathlib.Topology.Algebra.GroupWithZero

/-!
# The choice of the barrier parameter near the central path (C91)

For a list of eigenvalues that is nearly constant, `ComputeMuFromDivergence` increases the parameter by a factor.
-/

namespace Verif.Divergence

open Spec

theorem dist_sq_le {l : List ℝ} {k B : ℝ} (hB : 0 ≤ B) (h : distSq l k ≤ B ^ 2) : dist l k ≤ B :=
  (dist_le_iff hB).2 fun _ hx => abs_le_of_sq_le_sq ((sq_le_distSq hx).trans h) hB

/-- The infinity norm over the whole interval. -/
theorem abs_le_normInf {p : Slack ℝ} {x : ℝ} (h1 : p.lmin ≤ x) (h2 : x ≤ p.lmax) (k : ℝ) : |k * x - 1| ≤ normInf k p := by
  rw [normInf_eq_max]
  have a1 := le_abs_self (k * p.lmax - 1)
  have a2 := neg_abs_le (k * p.lmax - 1)
  have a3 := le_abs_self (k * p.lmin - 1)
  have a4 := neg_abs_le (k * p.lmin - 1)
  have m1 := le_max_left |k * p.lmax - 1| |k * p.lmin - 1|
  have m2 := le_max_right |k * p.lmax - 1| |k * p.lmin - 1|
  rw [abs_le]
  rcases le_total 0 k with hk | hk
  · have b1 := mul_le_mul_of_nonneg_left h1 hk
    have b2 := mul_le_mul_of_nonneg_left h2 hk
    constructor <;> linarith
  · have b1 := mul_le_mul_of_nonpos_left h1 hk
    have b2 := mul_le_mul_of_nonpos_left h2 hk
    constructor <;> linarith

theorem continuous_divergence {p : Slack ℝ} {s : Set ℝ} (h : ∀ k ∈ s, normInf k p < 1) :
    ContinuousOn (fun k => divergence k p) s := by
  have h1 : Continuous fun k => normInf k p := by
    simp only [normInf_eq_max]
    fun_prop
  unfold divergence
  refine ContinuousOn.div (by fun_prop) (by fun_prop) fun k hk => ?_
  have := h k hk
  linarith

/-- `‖k S - e‖²` in terms of the data. -/
def gap (p : Slack ℝ) (k : ℝ) : ℝ := k * k * p.frob - 2 * k * p.trace + p.rank

/-- Data that belong to eigenvalues, where `lmin` and `lmax` lie between the smallest and the largest of them. -/
structure Inner (p : Slack ℝ) : Prop where
  le : p.lmin ≤ p.lmax
  rank : 1 ≤ p.rank
  min : ∀ k, (k * p.lmin - 1) ^ 2 ≤ gap p k
  max : ∀ k, (k * p.lmax - 1) ^ 2 ≤ gap p k

theorem Inner.frob {p : Slack ℝ} (h : Inner p) : p.lmax ^ 2 ≤ p.frob := by
  by_contra hcon
  push Not at hcon
  have h0 : 0 < p.lmax ^ 2 - p.frob := by linarith
  set κ := 1 + p.rank / (p.lmax ^ 2 - p.frob) with hκ
  have h1 := h.max κ
  have h2 := h.max (-κ)
  have h3 : 0 < p.rank / (p.lmax ^ 2 - p.frob) := div_pos (by linarith [h.rank]) h0
  have h4 : (p.lmax ^ 2 - p.frob) * (p.rank / (p.lmax ^ 2 - p.frob)) = p.rank := mul_div_cancel₀ _ h0.ne'
  have h5 : p.rank ≤ (p.lmax ^ 2 - p.frob) * κ ^ 2 := by
    rw [hκ]
    calc p.rank = (p.lmax ^ 2 - p.frob) * (p.rank / (p.lmax ^ 2 - p.frob)) := h4.symm
      _ ≤ _ := mul_le_mul_of_nonneg_left (by nlinarith) h0.le
  unfold gap at h1 h2
  nlinarith

/-- The gap at a larger parameter. -/
theorem gap_mul {p : Slack ℝ} (h0 : ∀ k, 0 ≤ gap p k) (hf : 0 < p.frob) {k τ : ℝ} (hr : 0 ≤ p.rank) :
    gap p ((1 + τ) * k) ≤ 2 * (1 + τ) ^ 2 * gap p k + 2 * τ ^ 2 * p.rank := by
  have h1 : p.trace ^ 2 ≤ p.frob * p.rank := by
    have h2 := mul_nonneg hf.le (h0 (p.trace / p.frob))
    unfold gap at h2
    have h3 : p.frob * (p.trace / p.frob) = p.trace := mul_div_cancel₀ _ hf.ne'
    have h4 : p.frob * (p.trace / p.frob * (p.trace / p.frob) * p.frob - 2 * (p.trace / p.frob) * p.trace + p.rank) =
        (p.frob * (p.trace / p.frob)) ^ 2 - 2 * (p.frob * (p.trace / p.frob)) * p.trace + p.frob * p.rank := by ring
    rw [h4, h3] at h2
    nlinarith
  have h2 : (k * p.trace - p.rank) ^ 2 ≤ p.rank * gap p k := by
    unfold gap
    nlinarith [mul_le_mul_of_nonneg_left h1 (sq_nonneg k)]
  have h3 : (2 * τ * (1 + τ) * (k * p.trace - p.rank)) ^ 2 ≤ ((1 + τ) ^ 2 * gap p k + τ ^ 2 * p.rank) ^ 2 := by
    have e1 : (2 * τ * (1 + τ) * (k * p.trace - p.rank)) ^ 2 ≤ 4 * (τ * (1 + τ)) ^ 2 * (p.rank * gap p k) := by
      have := mul_le_mul_of_nonneg_left h2 (show (0 : ℝ) ≤ 4 * (τ * (1 + τ)) ^ 2 by positivity)
      linarith [show (2 * τ * (1 + τ) * (k * p.trace - p.rank)) ^ 2 = 4 * (τ * (1 + τ)) ^ 2 * (k * p.trace - p.rank) ^ 2 by ring]
    nlinarith [sq_nonneg ((1 + τ) ^ 2 * gap p k - τ ^ 2 * p.rank)]
  have h4 := (abs_le.1 (abs_le_of_sq_le_sq h3 (by have := h0 k; positivity))).2
  have h5 : gap p ((1 + τ) * k) = (1 + τ) ^ 2 * gap p k + 2 * τ * (1 + τ) * (k * p.trace - p.rank) + τ ^ 2 * p.rank := by
    unfold gap
    ring
  linarith

theorem gap_between {p : Slack ℝ} (hf : 0 ≤ p.frob) {a b k B : ℝ} (ha : gap p a ≤ B) (hb : gap p b ≤ B) (h1 : a ≤ k)
    (h2 : k ≤ b) : gap p k ≤ B := by
  rcases h1.eq_or_lt with rfl | h1
  · exact ha
  rcases h2.eq_or_lt with rfl | h2
  · exact hb
  have h0 : 0 < b - a := by linarith
  have e : (b - a) * gap p k = (b - k) * gap p a + (k - a) * gap p b - (b - a) * ((k - a) * (b - k) * p.frob) := by
    unfold gap
    ring
  have e1 := mul_le_mul_of_nonneg_left ha (sub_nonneg.2 h2.le)
  have e2 := mul_le_mul_of_nonneg_left hb (sub_nonneg.2 h1.le)
  have e3 : 0 ≤ (b - a) * ((k - a) * (b - k) * p.frob) :=
    mul_nonneg h0.le (mul_nonneg (mul_nonneg (by linarith) (by linarith)) hf)
  exact le_of_mul_le_mul_left (a := b - a) (by nlinarith) h0

/-- Near the central path the parameter grows, whatever numbers between the eigenvalues are used. -/
theorem mu_near {sqrt : ℝ → ℝ} (hs : ∀ x, 0 ≤ x → SqrtAt sqrt x) {p : Slack ℝ} (hd : Inner p)
    {f τ k : ℝ} (hf : 0 < f) (hk : 0 < k) (hτ : 0 ≤ τ) (hτf : 16 * τ ^ 2 ≤ f) (hB : f * p.rank ≤ 1 / 32)
    (hl : gap p k ≤ 2 * (f * p.rank) ^ 2) :
    (1 + τ) * k ≤ muFromDivergence sqrt f p ∧
      ∀ k', k ≤ k' → k' ≤ muFromDivergence sqrt f p → gap p k' ≤ f * p.rank := by
  have hr := hd.rank
  have h0 : ∀ κ, 0 ≤ gap p κ := fun κ => (sq_nonneg _).trans (hd.min κ)
  set B := f * p.rank with hBdef
  have hB0 : 0 < B := by positivity
  have hdk : |k * p.lmin - 1| ≤ 1 / 16 := abs_le_of_sq_le_sq ((hd.min k).trans (by nlinarith)) (by norm_num)
  have hmin : 0 < p.lmin := by
    have := (abs_le.1 hdk).1
    by_contra hcon
    nlinarith [not_lt.1 hcon]
  have hmax := hmin.trans_le hd.le
  have hF : 0 < p.frob := (pow_pos hmax 2).trans_le hd.frob
  have hp : Pos p := ⟨hmin, hd.le, hF, by linarith, hd.max⟩
  have hfl : f ≤ 1 / 32 := by nlinarith
  have hτ1 : τ ≤ 1 / 22 := by
    by_contra hcon
    nlinarith [not_le.1 hcon]
  have hτB : τ ^ 2 * p.rank ≤ B / 16 := by
    have := mul_le_mul_of_nonneg_right hτf (by linarith : (0 : ℝ) ≤ p.rank)
    rw [← hBdef] at this
    linarith
  have ht2 : (1 + τ) ^ 2 ≤ 11 / 10 := by nlinarith
  have hgrow : gap p ((1 + τ) * k) ≤ B / 3 := by
    refine (gap_mul h0 hF (by linarith)).trans ?_
    have h1 : 2 * (1 + τ) ^ 2 * gap p k ≤ 2 * (11 / 10) * (2 * B ^ 2) :=
      mul_le_mul (by linarith) hl (h0 k) (by norm_num)
    nlinarith
  have hninf : ∀ κ, normInf κ p ^ 2 ≤ gap p κ := fun κ => by
    rw [normInf_eq_max]
    rcases max_choice |κ * p.lmax - 1| |κ * p.lmin - 1| with h | h <;> rw [h, sq_abs]
    · exact hd.max κ
    · exact hd.min κ
  have hdt : normInf ((1 + τ) * k) p ≤ 1 / 9 :=
    (abs_le_of_sq_le_sq' ((hninf _).trans (by linarith)) (by norm_num)).2
  have htk : 0 < (1 + τ) * k := by positivity
  have hbt : divergence ((1 + τ) * k) p ≤ B := by
    show gap p ((1 + τ) * k) / _ ≤ _
    rw [div_le_iff₀ (by linarith)]
    nlinarith
  -- a parameter with a large bound
  have hk1 : 3 / 2 / p.lmax * p.lmax = 3 / 2 := div_mul_cancel₀ _ hmax.ne'
  have hle : (1 + τ) * k ≤ 3 / 2 / p.lmax := by
    rw [le_div_iff₀ hmax]
    have := (abs_le.1 (abs_le_of_sq_le_sq ((hd.max ((1 + τ) * k)).trans (hgrow.trans
      (show B / 3 ≤ (1 / 9) ^ 2 by linarith))) (by norm_num))).2
    linarith
  have hfin : ∀ κ ∈ Set.Icc ((1 + τ) * k) (3 / 2 / p.lmax), normInf κ p < 1 := by
    intro κ hκ
    refine (normInf_lt_one hp).2 ⟨htk.trans_le hκ.1, ?_⟩
    have := mul_le_mul_of_nonneg_right hκ.2 hmax.le
    rw [hk1] at this
    linarith
  have hb1 : B ≤ divergence (3 / 2 / p.lmax) p := by
    have h1 := hfin _ (Set.right_mem_Icc.2 hle)
    have h2 : (1 / 2 : ℝ) ≤ normInf (3 / 2 / p.lmax) p := by
      have := abs_le_normInf (p := p) hd.le le_rfl (3 / 2 / p.lmax)
      rw [hk1] at this
      norm_num at this ⊢
      linarith
    have h3 : (1 / 4 : ℝ) ≤ gap p (3 / 2 / p.lmax) := by
      have := hd.max (3 / 2 / p.lmax)
      rw [hk1] at this
      norm_num at this ⊢
      linarith
    show _ ≤ gap p _ / _
    rw [le_div_iff₀ (by linarith)]
    nlinarith
  obtain ⟨κ, hκ, hκB⟩ := intermediate_value_Icc hle (continuous_divergence hfin) (show B ∈ Set.Icc _ _ from ⟨hbt, hb1⟩)
  have hκf := hfin κ hκ
  simp only at hκB
  obtain ⟨g1, g2⟩ := inverse_spec (D := B) hs hB0 hp
  have hκle := g2 κ hκf hκB
  have hne : inverse sqrt B p ≠ -1 := fun h => by
    rw [h] at hκle
    linarith [htk.trans_le hκ.1]
  obtain ⟨g3, g4⟩ := g1.resolve_left hne
  have hmu : muFromDivergence sqrt f p = inverse sqrt B p := by
    unfold muFromDivergence
    simp only [← hBdef]
    rw [if_neg hne, if_neg fun h => absurd h.1 (not_lt.2 ((htk.trans_le hκ.1).le.trans hκle))]
  rw [hmu]
  refine ⟨hκ.1.trans hκle, fun k' h1 h2 => gap_between hF.le (hl.trans (by nlinarith)) ?_ h1 h2⟩
  have h3 : 0 ≤ normInf (inverse sqrt B p) p := (abs_nonneg _).trans (abs_le_normInf (p := p) hd.le le_rfl _)
  have g5 : gap p (inverse sqrt B p) / (1 - normInf (inverse sqrt B p) p) = B := g4
  rw [div_eq_iff (by linarith)] at g5
  rw [g5]
  nlinarith

/-- Near the central path the parameter grows. -/
theorem mu_grow {sqrt : ℝ → ℝ} (hs : ∀ x, 0 ≤ x → SqrtAt sqrt x) {l : List ℝ} {p : Slack ℝ} (hd : DataOf l p)
    {f τ k : ℝ} (hf : 0 < f) (hk : 0 < k) (hτ : 0 ≤ τ) (hτf : 16 * τ ^ 2 ≤ f) (hB : f * l.length ≤ 1 / 32)
    (hl : distSq l k ≤ 2 * (f * l.length) ^ 2) :
    (1 + τ) * k ≤ muFromDivergence sqrt f p ∧
      ∀ k', k ≤ k' → k' ≤ muFromDivergence sqrt f p → distSq l k' ≤ f * l.length := by
  have hlen : (1 : ℝ) ≤ l.length := by
    have := List.length_pos_of_mem hd.lmin_mem
    exact_mod_cast this
  have e : ∀ κ, gap p κ = distSq l κ := distSq_eq hd
  have hi : Inner p := ⟨hd.lmin_le _ hd.lmax_mem, hd.rank ▸ hlen, fun κ => e κ ▸ sq_le_distSq hd.lmin_mem,
    fun κ => e κ ▸ sq_le_distSq hd.lmax_mem⟩
  have := mu_near hs hi hf hk hτ hτf (hd.rank ▸ hB) (by rw [e, hd.rank]; exact hl)
  rw [hd.rank] at this
  simpa only [e] using this

end Verif.Divergence
